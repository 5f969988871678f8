import Verif.Lemmas.Clock
import Verif.Props.Posterior

/-! Interrupting a run: C109. -/

namespace Poco
open F Spec

variable {d : ℕ} {B Φ : Type}

section
variable {e e' : SamplerEnv d B Φ} {ll lp : Pt d → F} {bb : Pt d → List B} {hb : Bool} {s s' : Sampler d B Φ} {rnd : Rnd d Φ}
  {its : List (Iter d (List B))} {lo : Leftover d Φ}

/-! ### what holds -/

/-- What `posterior` reads is as after a run without failures. -/
theorem Kept.readable {q : Bool} (h : Kept q e ll lp bb hb s its) :
    Inv e ll lp bb hb { s with cur := its.getLast?.map fun it => { it := it, weights := none }, flowUntrained := true } its :=
  ⟨h.past, h.rows, by cases its.getLast? <;> rfl, h.betas, h.logz, h.blobs, h.blobs', h.bounds, h.scale, h.noPrior, h.prior, (fun h => by cases h), h.warm⟩

/-- C109, the part that holds: runs may be interrupted after any number of operations (and may raise), and be called again; as long as no interrupt arrives while
an iteration is being stored, or between drawing the prior samples and fitting the scaler, `posterior` returns in every state with stored particles, and what it
returns is as C61 says: samples, log-likelihoods, log-priors and blobs that belong to each other, with positive weights that sum to one.

Missing for the full claim: the two moments left out (`C109_torn`, `C109_unscaled`). -/
theorem C109_interrupt_partial (hu : UserFns e ll lp bb hb) (hp : ProperLike ll) (hc : Configured e) (hs : Attempts e hb false s)
    (hne : s.particles.past.x ≠ []) (us : ℕ → ℝ) (hus : ∀ k, 0 ≤ us k ∧ us k < 1) (u : ℝ) (h0 : 0 ≤ u) (h1 : u < 1) (a : PostArgs)
    (ha : a.trim = true → ∃ ε : ℝ, a.essTrim = fin ε ∧ ε ≤ 1 ∧ 1 ≤ a.binsTrim) (hbl : a.returnBlobs = true → hb = true) :
    ∃ (H : List Stage) (all kept rows : List (Row d (List B))) (ls : List ℝ) (out : PostOut d B),
      Holds s.particles.past H ∧ AllRows hb s.particles.past all ∧ (∀ r ∈ all, r.Belongs s.scaler ll lp bb hb) ∧
      kept.Sublist all ∧ (a.trim = false → kept = all) ∧ kept ≠ [] ∧ kept.map (·.logl) = ls.map fin ∧
      posterior e us u a s = .ok out ∧
      out.samples = rows.map (·.x) ∧ out.logl = rows.map (·.logl) ∧ out.logp = rows.map (·.logp) ∧
      out.blobs = (if a.returnBlobs then some (rows.map (·.blob)) else none) ∧
      (a.resample = false → rows = kept) ∧
      (a.resample = false → a.returnLogw = false → out.weights = some ((relWeights H ls).map fin) ∧
        (relWeights H ls).length = rows.length ∧ (∀ w ∈ relWeights H ls, 0 < w) ∧ (relWeights H ls).sum = 1) ∧
      (a.resample = true → out.weights = none ∧ rows.length = kept.length ∧ ∀ r ∈ rows, r ∈ kept) := by
  obtain ⟨its, hk⟩ := hs.kept hu hc (ll := ll) (lp := lp) (bb := bb)
  exact posterior_inv hp hc hk.readable hne us hus u h0 h1 a ha hbl

/-! ### an interrupt while an iteration is stored -/

/-- More or fewer points are stored than log-likelihoods. -/
def Torn (s : Sampler d B Φ) : Prop := s.priorSamples.isSome = true ∧ s.particles.past.x.flatten.length ≠ s.particles.past.logl.flatten.length

theorem Torn.update {p : Particles d (List B)} {it : Iter d (List B)} (h : p.past.x.flatten.length ≠ p.past.logl.flatten.length) (hi : it.x.length = it.logl.length) :
    (p.update (Cols.full it)).past.x.flatten.length ≠ (p.update (Cols.full it)).past.logl.flatten.length := by
  simp only [Particles.update, Cols.full, Option.toList_some, List.flatten_append, List.length_append, List.flatten_singleton] at h ⊢
  omega

theorem warmup_even (hu : UserFns e ll lp bb hb) {i : ℕ} {b0 b : Batch d B} {hb' : Bool} {f : ℕ → ℕ} (h1 : warmupBatch e s i = .ok (b0, hb'))
    (h2 : replaceInf b0 hb' f = .ok b) : b.x.length = b.logl.length := by
  have h0 : b0.x.length = b0.logl.length := by
    unfold warmupBatch at h1
    obtain ⟨ps, -, h1⟩ := bind_ok h1
    obtain ⟨u, -, h1⟩ := bind_ok h1
    obtain ⟨inv, -, h1⟩ := bind_ok h1
    obtain ⟨⟨l, bl, hb''⟩, g, h1⟩ := bind_ok h1
    simp only [pure, Except.pure, Except.ok.injEq, Prod.mk.injEq] at h1
    obtain ⟨rfl, -⟩ := h1
    generalize (ps.drop (i * e.nActive)).take e.nActive = xs at g ⊢
    cases xs with
    | nil =>
      rw [hu.nothing] at g
      simp only [Except.ok.injEq, Prod.mk.injEq] at g
      simp [← g.1]
    | cons x xs =>
      rw [hu.like _ (by simp)] at g
      simp only [Except.ok.injEq, Prod.mk.injEq] at g
      simp [← g.1]
  unfold replaceInf at h2
  obtain ⟨⟨dst, src⟩, -, h2⟩ := bind_ok h2
  simp only at h2
  split_ifs at h2
  · simp only [pure, Except.pure, Except.ok.injEq] at h2
    rw [← h2, h0]
  · obtain ⟨x, hx, h2⟩ := bind_ok h2
    obtain ⟨_, _, h2⟩ := bind_ok h2
    obtain ⟨_, _, h2⟩ := bind_ok h2
    obtain ⟨_, _, h2⟩ := bind_ok h2
    obtain ⟨l, hl, h2⟩ := bind_ok h2
    obtain ⟨_, _, h2⟩ := bind_ok h2
    simp only [pure, Except.pure, Except.ok.injEq] at h2
    rw [← h2]
    exact (copyRows_length hx).trans (h0.trans (copyRows_length hl).symm)

theorem Torn.move (hu : UserFns e ll lp bb hb) (h : Torn s) (hm : Move e rnd s s') : Torn s' := by
  obtain ⟨h1, h2⟩ := h
  cases hm with
  | init a hi =>
    rcases runInit_ok hi with ⟨-, rfl⟩ | ⟨-, sc, -, rfl⟩
    · exact ⟨h1, h2⟩
    · exact ⟨rfl, h2⟩
  | warm i hw hi hm =>
    obtain ⟨b0, hb', b, g1, g2, rfl⟩ := warmupStep_shape hm
    refine ⟨?_, Torn.update h2 (warmup_even hu g1 g2)⟩
    simpa using h1
  | endWarm hw => exact ⟨h1, h2⟩
  | smc fuel hw h =>
    obtain ⟨c, s1, c1, s2, c2, s3, c3, g0, g1, g2, g3, g4, rfl⟩ := smcStep_ok h
    obtain ⟨n, rfl⟩ := reweight_keep g1
    obtain ⟨ws, k, r, -, -, -, g5⟩ := mutate_ok g4
    simp only [writeBack, Prod.mk.injEq] at g5
    obtain ⟨rfl, rfl⟩ := g5
    rcases train_ok g2 with ⟨-, flow, g, rfl⟩ | ⟨-, g, rfl⟩ <;> exact ⟨h1, Torn.update h2 (by simp)⟩
  | evidence hw h =>
    rcases finalEvidence_ok h with ⟨-, -, h⟩ | ⟨-, lw, z, -, rfl⟩
    · obtain ⟨inv, ll', bl, hbl, -, -, rfl⟩ := computeEvidence_ok h
      exact ⟨h1, h2⟩
    · exact ⟨h1, h2⟩

theorem Torn.moves (hu : UserFns e ll lp bb hb) (h : Torn s) (hm : Moves e rnd s s') : Torn s' := by
  induction hm with
  | refl => exact h
  | tail _ hm ih => exact ih.move hu hm

theorem Torn.left (hu : UserFns e ll lp bb hb) (h : Torn s) (hl : Left false e rnd s s') : Torn s' := by
  cases hl with
  | between => exact h
  | args ha => rw [ha]; exact h
  | init x hn _ => rw [Torn, hn] at h; cases h.1
  | warm i hw hi ht =>
    obtain ⟨⟨b0, hb', g1, g2, g3, g4⟩, g6⟩ := ht
    have hpa : s'.particles = s.particles := by rw [g6]
    refine ⟨?_, by rw [hpa]; exact h.2⟩
    rcases g4 with g4 | ⟨_, _, _, _, _, g4⟩
    · rw [g4]; exact h.1
    · rw [g4]; simpa using h.1
  | made i hw hi hm =>
    obtain ⟨-, s4, g1, g2⟩ := hm
    have := h.move hu (.warm i hw hi g1)
    rcases g2 with rfl | rfl
    · exact ⟨this.1, h.2⟩
    · exact this
  | smc hw ht =>
    obtain ⟨c, c', -, -, -, -, g⟩ := ht
    rw [g]; exact h
  | evidence hw he =>
    obtain ⟨s4, -, g⟩ := he
    rw [g]; exact h

theorem Torn.afterwards (hu : UserFns e ll lp bb hb) (h : Torn s) (hl : Afterwards e s s') : Torn s' := by
  induction hl with
  | start => exact h
  | ran e' rnd fuel n a _ he hr ih => exact ih.moves hu (Moves.mono he ((Along.run fuel n a _).to_end _ hr).1)
  | failed e' rnd lo fuel n a k x _ he hx hr ih =>
    obtain ⟨m, g1, g2⟩ := (raised_left (q := false) (fun h => by cases h) hx hr).mono he
    exact (ih.moves hu g1).left hu g2
  | loaded e' rnd fuel n a sv _ he hr ih => exact ih.moves hu (Moves.mono he ((Along.run fuel n a _).from_start sv hr))

theorem trimLoop_uneven {α : Type} (samples : List α) (w : List F) (hl : samples.length ≠ w.length) (T ess : F) (grid : List ℝ) (i : ℤ) (r : List α × List F) :
    trimLoop samples w T ess grid i ≠ .ok r := by
  generalize hm : (i + grid.length + 1).toNat = m
  induction m using Nat.strong_induction_on generalizing i with
  | _ m ih =>
    rw [trimLoop]
    split
    · simp
    · rename_i p hp
      split
      · simp
      · dsimp only
        split_ifs
        · simp
        · refine ih _ ?_ (i - 1) rfl
          have : 0 ≤ i + grid.length := by
            by_contra hc
            unfold pyGet? at hp
            rw [if_neg (by omega), if_neg (by omega)] at hp
            cases hp
          omega

theorem Torn.posterior (h : Torn s) (us : ℕ → ℝ) (u : ℝ) (a : PostArgs) (ha : a.trim = true) (out : PostOut d B) : Poco.posterior e us u a s ≠ .ok out := by
  intro hp
  unfold Poco.posterior at hp
  obtain ⟨p, h1, hp⟩ := bind_ok hp
  obtain ⟨p', h2, -⟩ := bind_ok hp
  unfold postCollect at h1
  split_ifs at h1
  obtain ⟨x, g1, h1⟩ := bind_ok h1
  obtain ⟨l, g2, h1⟩ := bind_ok h1
  obtain ⟨lp, g3, h1⟩ := bind_ok h1
  obtain ⟨bl, g4, h1⟩ := bind_ok h1
  obtain ⟨⟨lw, z⟩, g5, h1⟩ := bind_ok h1
  simp only [pure, Except.pure, Except.ok.injEq] at h1
  subst h1
  have hx : x = s.particles.past.x.flatten := by
    unfold getFlat at g1
    split_ifs at g1
    simpa using g1.symm
  have hw : lw.length = s.particles.past.logl.flatten.length := by
    unfold computeLogwLogz at g5
    split_ifs at g5 <;> first | cases g5; done | skip
    all_goals
      simp only [Except.ok.injEq, Prod.mk.injEq] at g5
      have := congrArg List.length g5.1
      simp only [List.length_map] at this
      exact this.symm
  unfold postTrim at h2
  rw [if_pos ha] at h2
  obtain ⟨tr, g6, -⟩ := bind_ok h2
  unfold trimWeights at g6
  obtain ⟨r, g7, -⟩ := bind_ok g6
  refine trimLoop_uneven _ _ ?_ _ _ _ _ _ g7
  have := h.2
  simp only [List.length_range, normalize, List.length_map, hx, hw]
  exact this

/-- The first two columns of an iteration are stored, then the interrupt arrives. -/
theorem storeX_torn (it : Iter d (List B)) (s : Sampler d B Φ) : Fires (storeX it) (.keyboardInterrupt .storing) s
    { s with particles := { s.particles with past := { s.particles.past with u := s.particles.past.u ++ [it.u], x := s.particles.past.x ++ [it.x] } } } := ⟨2, rfl⟩

/-- An interrupt can arrive in the middle of an iteration of the main loop, after points were stored and before log-likelihoods are. -/
theorem smcStepX_torn {fuel : ℕ} (h : smcStep e rnd fuel s = .ok s') : ∃ (c : Cur d B) (m : Sampler d B Φ), Fires (smcStepX e rnd lo fuel) (.keyboardInterrupt .storing) s
      { m with particles := { m.particles with past := { m.particles.past with u := m.particles.past.u ++ [c.it.u], x := m.particles.past.x ++ [c.it.x] } } } ∧
    m.cur = some c ∧ s' = { m with particles := m.particles.update (Cols.full c.it) } := by
  obtain ⟨_, _, hX, rfl⟩ := (smcStepX_spec (lo := lo) (q := true) s).of_ok h
  unfold smcStepX at hX
  obtain ⟨_, _, _, q, hX⟩ := bindX_inv hX
  cases q
  obtain ⟨c0, k, s1, q0, hX⟩ := bindX_inv hX
  obtain rfl := (Timed.call _ _ _ _ _ q0).1
  have hs1 : s1 = s := by
    cases h0 : s.cur with
    | none => rw [h0] at q0; cases q0
    | some c => rw [h0] at q0; cases q0; rfl
  rw [hs1] at q0 hX
  obtain ⟨_, k, s2, q1, hX⟩ := bindX_inv hX
  obtain rfl := (Timed.reweightX _ _ _ _ q1).1
  obtain ⟨_, k, s3, q2, hX⟩ := bindX_inv hX
  obtain rfl := (Timed.trainX _ _ _ _ q2).1
  obtain ⟨_, k, s4, q3, hX⟩ := bindX_inv hX
  obtain rfl := (Timed.resampleX _ _ _ _ q3).1
  obtain ⟨_, k, m, q4, hX⟩ := bindX_inv hX
  obtain rfl := (Timed.mutateX _ _ _ _ q4).1
  obtain ⟨_, _, _, q, hX⟩ := bindX_inv hX
  cases q
  cases hm : m.cur with
  | none => rw [hm] at hX; cases hX
  | some c =>
    refine ⟨c, m, ?_, hm, ?_⟩
    · unfold smcStepX
      exact .look (.after (.call _) q0 (.after .reweightX q1 (.after .trainX q2 (.after .resampleX q3 (.after .mutateX q4 (.look (.call (v := c) (by rw [hm]; rfl) (storeX_torn _ _))))))))
    · rw [hm] at hX
      cases hX
      rfl

theorem runInitX_quiet {a : RunArgs} {s1 : Sampler d B Φ} (h : runInit e rnd a s = .ok s1) : runInitX e rnd a none s = .ok ((), none) s1 := by
  obtain ⟨_, _, g1, rfl⟩ := (runInitX_spec (q := true) a s).of_ok h
  exact g1

theorem runWarmupX_quiet {a : RunArgs} {t0 : ℕ} {s1 : Sampler d B Φ} (h : (runWarmup e rnd a t0 s).2 = .ok s1) : runWarmupX e rnd a t0 none s = .ok ((), none) s1 := by
  obtain ⟨_, _, g1, rfl⟩ := (runWarmupX_spec (q := true) s).of_ok h
  exact g1

/-- An interrupt can arrive in the middle of the first warm-up iteration. -/
theorem warmup_torn (hu : UserFns e ll lp bb hb) (hc : Configured e) {a : RunArgs} {s1 s2 : Sampler d B Φ} {t0 : ℕ} (hw : s1.warmup = true)
    (hx : s1.particles.past.x.flatten.length = s1.particles.past.logl.flatten.length)
    (hps : ∀ ps, s1.priorSamples = some ps → ps.length = e.nPrior) (h2 : (runWarmup e rnd a t0 s1).2 = .ok s2) :
    ∃ s3, Fires (runWarmupX e rnd a t0) (.keyboardInterrupt .storing) s1 s3 ∧ Torn s3 := by
  obtain ⟨n, hn⟩ : ∃ n, e.nPrior / e.nActive = n + 1 := ⟨e.nPrior / e.nActive - 1, by have := Nat.div_pos hc.2.1 hc.1; omega⟩
  unfold runWarmup at h2
  rw [hw] at h2
  simp only [if_true, if_neg hc.1.ne', hn] at h2
  rw [andThen_snd] at h2
  obtain ⟨m, h2, -⟩ := bind_ok h2
  unfold warmupLoop at h2
  rw [andThen_snd, save_snd] at h2
  obtain ⟨m1, h3, h2⟩ := bind_ok h2
  obtain ⟨sv, hsv, h3⟩ := bind_ok h3
  simp only [pure, Except.pure, Except.ok.injEq] at h3
  subst h3
  rw [andThen_snd] at h2
  obtain ⟨m2, h4, -⟩ := bind_ok h2
  have h4 : warmupStep e rnd s1 0 = .ok m2 := h4
  obtain ⟨b0, hb', b, g1, g2, g3⟩ := warmupStep_shape h4
  have hev := warmup_even hu g1 g2
  have hlen : b.x.length = e.nActive := by
    obtain ⟨ps, p1, p2⟩ := warmupBatch_slice g1
    have h0 : b0.x.length = e.nActive := by
      have := hc.2.1
      rw [p2, List.length_take, List.length_drop, hps ps p1]
      omega
    unfold replaceInf at g2
    obtain ⟨⟨dst, src⟩, -, g2⟩ := bind_ok g2
    simp only at g2
    split_ifs at g2
    · simp only [pure, Except.pure, Except.ok.injEq] at g2
      rw [← g2, h0]
    · obtain ⟨x, hx, g2⟩ := bind_ok g2
      obtain ⟨_, _, g2⟩ := bind_ok g2
      obtain ⟨_, _, g2⟩ := bind_ok g2
      obtain ⟨_, _, g2⟩ := bind_ok g2
      obtain ⟨l, hl, g2⟩ := bind_ok g2
      obtain ⟨_, _, g2⟩ := bind_ok g2
      simp only [pure, Except.pure, Except.ok.injEq] at g2
      rw [← g2]
      exact (copyRows_length hx).trans h0
  have hX : warmupStepX e rnd 0 none s1 = .ok ((), none) m2 := by
    obtain ⟨_, _, g1, rfl⟩ := (warmupStepX_spec (q := true) 0 s1).of_ok h4
    exact g1
  suffices ∃ s3, Fires (warmupStepX e rnd 0) (.keyboardInterrupt .storing) s1 s3 ∧ Torn s3 by
    obtain ⟨s3, k1, k2⟩ := this
    refine ⟨s3, ?_, k2⟩
    unfold runWarmupX
    refine .look ?_
    rw [hw]
    simp only [if_true, if_neg hc.1.ne', hn]
    refine .inside ?_
    unfold warmupLoopX
    exact .look (.call hsv (.inside k1))
  unfold warmupStepX at hX
  obtain ⟨_, _, _, q, hX⟩ := bindX_inv hX
  cases q
  rw [g1] at hX
  obtain ⟨_, _, _, q, hX⟩ := bindX_inv hX
  cases q
  obtain ⟨_, _, _, q, hX⟩ := bindX_inv hX
  cases q
  obtain ⟨_, _, _, q, hX⟩ := bindX_inv hX
  cases q
  obtain ⟨b', k, s5, hR, hX⟩ := bindX_inv hX
  have hk := (Timed.replaceInfX _ _ _ _ _ _ _ _ hR).1
  subst hk
  cases hX
  have ep := congrArg (fun s => s.priorSamples) g3
  have ex := congrArg (fun s => s.particles.past.x) g3
  have el := congrArg (fun s => s.particles.past.logl) g3
  simp only [Particles.update, Cols.full, warmupIter, Option.toList_some] at ep ex el
  obtain ⟨ex1, ex2⟩ := List.append_inj' ex rfl
  obtain ⟨el1, -⟩ := List.append_inj' el rfl
  refine ⟨_, by
    unfold warmupStepX
    exact .look (.call g1 (.change (.change (.after (.replaceInfX _ _ _ _) hR (.look (.change (.inside (storeX_torn _ _)))))))), ?_, ?_⟩
  · obtain ⟨ps, p1, -⟩ := warmupBatch_slice g1
    simp only [ep, p1]
    rfl
  · simp only [ex1, el1, warmupIter, List.flatten_append, List.length_append, List.flatten_singleton]
    simp only [List.cons.injEq, and_true] at ex2
    rw [ex2, hlen]
    have := hc.1
    omega

/-- **C109 fails: an interrupt while an iteration is stored.** Whatever the model: when a first call of `run` would return, there is a number of operations after
which an interrupt leaves the sampler with more points than log-likelihoods. `posterior` (with its trimming) raises then, and it raises in every state that can
follow, however often `run` is called again. -/
theorem C109_torn (hu : UserFns e ll lp bb hb) (hc : Configured e) (hs : Fresh e hb s) (hd : Draws s.scaler.low s.scaler.high rnd) (lo : Leftover d Φ) (fuel n : ℕ)
    (a : RunArgs) (hr : (run e rnd fuel n a s).2 = .ok s') :
    ∃ k s1, Raised (runX e rnd lo fuel n a (some k) s) (.keyboardInterrupt .storing) s1 ∧
      ∀ s2, Afterwards e s1 s2 → ∀ us u pa, pa.trim = true → ∀ out, posterior e us u pa s2 ≠ .ok out := by
  unfold run at hr
  rw [andThen_snd] at hr
  obtain ⟨a1, h1, hr⟩ := bind_ok hr
  rw [andThen_snd] at hr
  obtain ⟨a2, h2, -⟩ := bind_ok hr
  have h1 : runInit e rnd a s = .ok a1 := h1
  have key : a1.warmup = true ∧ a1.particles.past.x.flatten.length = a1.particles.past.logl.flatten.length ∧ ∀ ps, a1.priorSamples = some ps → ps.length = e.nPrior := by
    rcases runInit_ok h1 with ⟨⟨ps, h⟩, -⟩ | ⟨-, sc, -, rfl⟩
    · rw [hs.priorSamples] at h; cases h
    · refine ⟨hs.warmup, by simp only [hs.particles]; rfl, fun ps hps => ?_⟩
      simp only [Option.some.injEq] at hps
      obtain ⟨xs, x1, x2, -⟩ := hd.prior e.nPrior
      rw [← hps, x1, List.length_map, x2]
  obtain ⟨s3, hf, ht⟩ := warmup_torn hu hc key.1 key.2.1 key.2.2 h2
  have : Fires (runX e rnd lo fuel n a) (.keyboardInterrupt .storing) s s3 := by
    unfold runX
    exact .look (.after (.runInitX a) (runInitX_quiet h1) (.inside hf))
  obtain ⟨k, hk⟩ := this
  exact ⟨k, s3, hk, fun s2 h2 us u pa hpa out => (ht.afterwards hu h2).posterior us u pa hpa out⟩

/-! ### an interrupt between the prior samples and the scaler -/

/-- **C109 fails: an interrupt between drawing the prior samples and fitting the scaler.** A first call of `run`, interrupted there (after three operations), leaves
a sampler that has prior samples but no fitted scaler. Every later call of `run` raises a TypeError, whatever its arguments. -/
theorem C109_unscaled (hc : Configured e) (hs : Fresh e hb s) (ha : s.scaler.affine = none) (hd : Draws s.scaler.low s.scaler.high rnd) (lo : Leftover d Φ)
    (fuel n : ℕ) (a : RunArgs) :
    ∃ s1, Raised (runX e rnd lo fuel n a (some 3) s) (.keyboardInterrupt .scaling) s1 ∧
      ∀ rnd' fuel' n' a', a'.saveEvery ≠ some 0 → (run e rnd' fuel' n' a' s1).2 = .error .typeError := by
  refine ⟨{ s with nTotal := a.nTotal, nEvidence := a.nEvidence, priorSamples := some (rnd.prior e.nPrior) }, ?_, fun rnd' fuel' n' a' ha' => ?_⟩
  · have : runInitX e rnd a (some 3) s = .error (.keyboardInterrupt .scaling) { s with nTotal := a.nTotal, nEvidence := a.nEvidence, priorSamples := some (rnd.prior e.nPrior) } := by
      unfold runInitX
      rw [bindX_ok (show (PyM.change _ : PyM d B Φ _) (some 3) s = .ok ((), some 2) { s with nTotal := a.nTotal } from rfl),
        bindX_ok (show (PyM.change _ : PyM d B Φ _) (some 2) { s with nTotal := a.nTotal } = .ok ((), some 1) { s with nTotal := a.nTotal, nEvidence := a.nEvidence } from rfl),
        bindX_ok (show (PyM.look : PyM d B Φ _) (some 1) { s with nTotal := a.nTotal, nEvidence := a.nEvidence } = .ok (_, some 1) _ from rfl)]
      simp only [hs.priorSamples, Option.isNone_none, if_true]
      rfl
    unfold Raised runX
    rw [bindX_ok (show (PyM.look : PyM d B Φ _) (some 3) s = .ok (s, some 3) s from rfl)]
    exact bindX_error this
  · obtain ⟨m, hm⟩ : ∃ m, e.nPrior / e.nActive = m + 1 := ⟨e.nPrior / e.nActive - 1, by have := Nat.div_pos hc.2.1 hc.1; omega⟩
    obtain ⟨xs, x1, x2, x3, -⟩ := hd.prior e.nPrior
    obtain ⟨y, ys, hy⟩ : ∃ y ys, (xs.drop (0 * e.nActive)).take e.nActive = y :: ys := by
      cases hq : (xs.drop (0 * e.nActive)).take e.nActive with
      | cons y ys => exact ⟨y, ys, rfl⟩
      | nil =>
        have := congrArg List.length hq
        have h1 := hc.1
        have h2 := hc.2.1
        simp [x2] at this
        omega
    have hin : ∀ z ∈ y :: ys, StrictlyInside s.scaler.low s.scaler.high z := by
      intro z hz
      rw [← hy] at hz
      exact x3 z (List.mem_of_mem_drop (List.mem_of_mem_take hz))
    have hstep : ∀ s1 : Sampler d B Φ, s1.priorSamples = some (rnd.prior e.nPrior) → s1.scaler = s.scaler → warmupStep e rnd' s1 0 = .error .typeError := by
      intro s1 h1 h2
      have : warmupBatch e s1 0 = .error .typeError := by
        unfold warmupBatch Scaler.forward
        rw [h1, h2, x1]
        simp only [orErr, bind, Except.bind, ← List.map_drop, ← List.map_take, hy, withinInterval_strict hs.bounds _ hin]
        simp [Scaler.forwardRow, hs.scale, ha, bind, Except.bind]
      unfold warmupStep
      rw [this]
      rfl
    unfold run
    rw [andThen_snd]
    rw [show ∀ r : Except PyErr (Sampler d B Φ), (Trace.lift r).2 = r from fun r => rfl, runInit_again (ps := rnd.prior e.nPrior) rfl]
    simp only [bind, Except.bind]
    rw [andThen_snd]
    have : (runWarmup e rnd' a' s.t { s with nTotal := a'.nTotal, nEvidence := a'.nEvidence, priorSamples := some (rnd.prior e.nPrior) }).2 = .error .typeError := by
      unfold runWarmup
      simp only [hs.warmup, if_true, if_neg hc.1.ne', hm]
      rw [andThen_snd]
      unfold warmupLoop
      rw [andThen_snd, save_snd]
      have hsave : ∀ q : Sampler d B Φ, ∃ sv, saveNow a'.saveEvery s.t q = .ok sv := by
        intro q
        unfold saveNow
        cases hk : a'.saveEvery with
        | none => exact ⟨_, rfl⟩
        | some k =>
          have : k ≠ 0 := by rintro rfl; exact ha' hk
          simp only [if_neg this]
          split_ifs <;> exact ⟨_, rfl⟩
      rw [(hsave _).choose_spec]
      simp only [bind, Except.bind, pure, Except.pure]
      rw [andThen_snd]
      rw [show ∀ r : Except PyErr (Sampler d B Φ), (Trace.lift r).2 = r from fun r => rfl, hstep]
      · rfl
      · rfl
      · rfl
    rw [this]
    rfl

end

namespace Demo

/-- Beside `C109_torn` and `C109_unscaled`: their hypotheses are met. -/
example (n : ℕ) : ∃ s', UserFns (env true) (fun _ => fin 0) (fun _ => fin 0) (fun _ => [()]) true ∧ Configured (env true) ∧ Fresh (env true) true start ∧
    start.scaler.affine = none ∧ Draws start.scaler.low start.scaler.high rnd ∧ (run (env true) rnd 0 1 (args n) start).2 = .ok s' := by
  obtain ⟨s', its, h, -⟩ := first_run true n
  exact ⟨s', user true, configured true, fresh true, rfl, draws, h⟩

/-- Beside `C109_interrupt_partial`: an interrupt in the middle of the main loop, after the new temperature was chosen; two iterations are stored. -/
example : ∃ k s1, Raised (runX (env false) rnd lost 0 1 ⟨4, 0, none⟩ (some k) start) (.keyboardInterrupt .elsewhere) s1 ∧ Attempts (env false) true false s1 ∧
    s1.particles.past.beta = [fin 0, fin 0] ∧ s1.t = 3 := by
  obtain ⟨a1, a2, its, k1, k2, k3, k4, k5, k6, k7, k8, k9, k10, -, -, k12, k11⟩ := warmed (env false) (user false) (configured false) start (fresh false) rfl rnd rfl rfl
    ⟨4, 0, none⟩ (by simp)
  have k4' : its.length = 2 := k4
  have hb0 : ∀ it, its.getLast? = some it → it.beta = fin 0 := fun it hit => k8 it (List.mem_of_getLast? hit)
  have hgo : notTermination (env false) a2 = .ok true := by
    rw [k3.flat_notTermination (flat false) (configured false) k5 k7 hb0]
    norm_num
  obtain ⟨c, hcur⟩ : ∃ c, a2.cur = some c := by
    obtain ⟨H, b, c, -, -, -, -, -, -, hcur, -⟩ := k3.flat (flat false) (configured false) k5 k7
    exact ⟨c, hcur⟩
  have hf : Fires (runX (env false) rnd lost 0 1 ⟨4, 0, none⟩) (.keyboardInterrupt .elsewhere) start { a2 with t := a2.t + 1 } := by
    unfold runX
    refine .look (.after (.runInitX _) (runInitX_quiet k1) (.after (.runWarmupX _ _) (runWarmupX_quiet k2) (.inside ?_)))
    unfold smcLoopX
    refine .look (.call hgo ?_)
    simp only [if_true]
    refine .call (v := []) rfl (.inside ?_)
    unfold smcStepX
    refine .look (.call (v := c) (by rw [hcur]; rfl) (.inside ?_))
    unfold reweightX
    exact .change (.look ⟨0, rfl⟩)
  obtain ⟨k, hk⟩ := hf
  refine ⟨k, _, hk, .failed (env false) rnd lost 0 1 ⟨4, 0, none⟩ (some k) _ (.fresh (fresh false)) (.refl _) draws (fun h => by cases h) (by simp [Benign]) hk, ?_, by simp [k12, k4']⟩
  rw [show ({ a2 with t := a2.t + 1 } : Sampler 2 Unit Unit).particles = a2.particles from rfl, k3.past]
  exact List.eq_replicate_iff.mpr ⟨show (its.map (·.beta)).length = 2 by simp [k4'], fun b hb => by
      obtain ⟨it, hit, rfl⟩ := List.mem_map.mp hb
      exact k8 it hit⟩

/-- **C109 fails silently at first.** The interrupt arrives while the last iteration is stored. Called again, `run` returns at once: the run counts as complete.
But `posterior()` raises, and will for ever. -/
theorem C109_complete_but_unusable : ∃ k s1 s2, Fresh (env false) true start ∧
    Raised (runX (env false) rnd lost 0 1 ⟨4, 0, none⟩ (some k) start) (.keyboardInterrupt .storing) s1 ∧ (run (env false) rnd 0 1 ⟨4, 0, none⟩ s1).2 = .ok s2 ∧
    ∀ s3, Afterwards (env false) s2 s3 → ∀ us u out, posterior (env false) us u PostArgs.default s3 ≠ .ok out := by
  obtain ⟨a1, a2, its, k1, k2, k3, k4, k5, k6, k7, k8, k9, k10, k12, -, -, k11⟩ := warmed (env false) (user false) (configured false) start (fresh false) rfl rnd rfl rfl
    ⟨4, 0, none⟩ (by simp)
  have k4' : its.length = 2 := k4
  obtain ⟨H, b, c, hH, hR, hfl, hlen, hb1, hl, hcur, hlast, hcb⟩ := k3.flat (flat false) (configured false) k5 k7
  have hb0 : ∀ it, its.getLast? = some it → it.beta = fin 0 := fun it hit => k8 it (List.mem_of_getLast? hit)
  have hN : a2.nEffective < H.length * (env false).nActive := by rw [k9, hlen, k4']; simp [start, env]
  have hgo : notTermination (env false) a2 = .ok true := by
    rw [k3.flat_notTermination (flat false) (configured false) k5 k7 hb0]
    norm_num
  obtain ⟨s', it, j1, j2, -, j4, -⟩ := k3.flat_step (flat false) (user false) (configured false) k11 (reliable false) k6 k5 k7 (by rw [← hlen]; exact hN) 0
  obtain ⟨c3, m, m1, m2, m3⟩ := smcStepX_torn (lo := lost) j1
  have hit : c3.it = it := by
    have := j2.cur
    rw [m3] at this
    simpa [m2] using this
  have hrow := j2.rows it (by simp)
  have hpast : m.particles.past = columns its := by
    have := j2.past
    rw [m3] at this
    generalize m.particles = p at this ⊢
    obtain ⟨p, _⟩ := p
    obtain ⟨p1, p2, p3, p4, p5, p6, p7, p8, p9, p10, p11, p12, p13, p14, p15⟩ := p
    simpa [Particles.update, Cols.full, columns, hit] using this
  obtain ⟨hw, ps, hps⟩ : m.warmup = false ∧ ∃ ps, m.priorSamples = some ps := by
    obtain ⟨ps, hps⟩ : ∃ ps, a2.priorSamples = some ps := by
      cases hps : a2.priorSamples with
      | none => exact absurd (k3.noPrior hps) k5
      | some ps => exact ⟨ps, rfl⟩
    have e1 : m.warmup = s'.warmup := by rw [m3]
    have e2 : m.priorSamples = s'.priorSamples := by rw [m3]
    rw [e1, e2]
    obtain ⟨c, s1, c1, s2, c2, s3, c3, g0, g1, g2, g3, g4, rfl⟩ := smcStep_ok j1
    obtain ⟨n, rfl⟩ := reweight_keep g1
    obtain ⟨ws, k, r, -, -, -, g5⟩ := mutate_ok g4
    simp only [writeBack, Prod.mk.injEq] at g5
    obtain ⟨rfl, rfl⟩ := g5
    rcases train_ok g2 with ⟨-, flow, g, rfl⟩ | ⟨-, g, rfl⟩ <;> exact ⟨k6, ps, hps⟩
  have hf : Fires (runX (env false) rnd lost 0 1 ⟨4, 0, none⟩) (.keyboardInterrupt .storing) start
      { m with particles := { m.particles with past := { m.particles.past with u := m.particles.past.u ++ [c3.it.u], x := m.particles.past.x ++ [c3.it.x] } } } := by
    unfold runX
    refine .look (.after (.runInitX _) (runInitX_quiet k1) (.after (.runWarmupX _ _) (runWarmupX_quiet k2) (.inside ?_)))
    unfold smcLoopX
    refine .look (.call hgo ?_)
    simp only [if_true]
    exact .call (v := []) rfl (.inside m1)
  obtain ⟨k, hk⟩ := hf
  obtain ⟨s4, e1, e2, e3, e4, e5, e6⟩ : ∃ s4 : Sampler 2 Unit Unit, Raised (runX (env false) rnd lost 0 1 ⟨4, 0, none⟩ (some k) start) (.keyboardInterrupt .storing) s4 ∧
      s4.particles.past = { columns its with u := m.particles.past.u ++ [c3.it.u], x := its.map (·.x) ++ [c3.it.x] } ∧
      s4.cur = some c3 ∧ s4.priorSamples = some ps ∧ s4.warmup = false ∧ True := ⟨_, hk, by simp only [hpast]; rfl, m2, hps, hw, trivial⟩
  have hH' : Holds s4.particles.past H := by
    rw [k3.past] at hH
    rw [e2]
    exact hH
  have htorn : Torn { s4 with nTotal := 4, nEvidence := 0, logz := some (fin 0), logzErr := none } := by
    refine ⟨by simp [e4], ?_⟩
    have heq : ((its.map (·.x)).flatten).length = ((its.map (·.logl)).flatten).length := by
      simp only [List.length_flatten, List.map_map]
      congr 1
      refine List.map_congr_left fun i hi => ?_
      obtain ⟨rows, -, r2, -⟩ := k3.rows i hi
      simp [r2.x, r2.logl]
    obtain ⟨rows, r1, r2, -⟩ := hrow
    simp only [e2, columns, List.flatten_append, List.length_append, List.flatten_singleton, hit, heq, r2.x, List.length_map, r1]
    simp [env]
  have hstop : notTermination (env false) { s4 with nTotal := 4, nEvidence := 0 } = .ok false := by
    have hsz := flat_size hR hfl 1
    unfold notTermination
    rw [(flat false).metric]
    simp only [essAt_fin _ H _ hR hH', e3, hit, j4, orErr, bind, Except.bind, pure, Except.pure, hsz, F.ofNat, fin_sub, ge_iff_le, F.fin_le, F.fin_lt, hlen, k4']
    norm_num [env]
  refine ⟨k, s4, { s4 with nTotal := 4, nEvidence := 0, logz := some (fin 0), logzErr := none }, fresh false, e1,
    run_of_parts (s3 := { s4 with nTotal := 4, nEvidence := 0 }) (runInit_again e4) (runWarmup_again e5) ?_ ?_, fun s3 h3 us u out => (htorn.afterwards (user false) h3).posterior us u _ rfl out⟩
  · unfold smcLoop
    simp only [hstop]
  · unfold finalEvidence
    simp only [computeLogwLogz_fin _ H _ hR hH', gt_iff_lt, lt_irrefl, false_and, if_false, bind, Except.bind, pure, Except.pure, flat_logz hR hfl]

end Demo

end Poco
