import Verif.Props.RunHistory

/-! Iteration numbers, resuming, warm-up coverage, fitted geometry (C55, C58, C65, C72). -/

namespace Poco
open F Spec

variable {d : ℕ} {B Φ : Type}

section
variable {e : SamplerEnv d B Φ} {rnd : Rnd d Φ}

/-! ### the course of a run -/

theorem warmupLoop_t {k : Option ℕ} {t0 : ℕ} (n : ℕ) : ∀ (i : ℕ) (s s' : Sampler d B Φ),
    (warmupLoop e rnd k t0 n i s).2 = .ok s' → s'.t = s.t + n := by
  induction n with
  | zero => intro i s s' h; simp only [warmupLoop, Except.ok.injEq] at h; rw [← h]; rfl
  | succ n ih =>
    intro i s s' h
    obtain ⟨s1, h1, h⟩ := andThen_ok h
    obtain ⟨s2, h2, h⟩ := andThen_ok h
    rw [save_ok h1] at h2
    rw [ih _ _ _ h, (warmupStep_warmup h2).2]
    omega

/-- A warm-up that returns: the loop over all batches. -/
theorem runWarmup_true {a : RunArgs} {t0 : ℕ} {s s' : Sampler d B Φ} (hw : s.warmup = true)
    (h : (runWarmup e rnd a t0 s).2 = .ok s') :
    ∃ s1, (warmupLoop e rnd a.saveEvery t0 (e.nPrior / e.nActive) 0 s).2 = .ok s1 ∧ s' = { s1 with warmup := false } := by
  unfold runWarmup at h
  simp only [hw, if_true] at h
  split_ifs at h with hz
  obtain ⟨s1, h1, h⟩ := andThen_ok h
  simp only [Except.ok.injEq] at h
  exact ⟨s1, h1, h.symm⟩

theorem runWarmup_false {a : RunArgs} {t0 : ℕ} {s s' : Sampler d B Φ} (hw : s.warmup = false)
    (h : (runWarmup e rnd a t0 s).2 = .ok s') : s' = s := by
  unfold runWarmup at h
  simp only [hw, Bool.false_eq_true, if_false, Except.ok.injEq] at h
  exact h.symm

/-! ### C58 -/

/-- The `iter` column during the warm-up counts up from 0. -/
def CountsUp (s : Sampler d B Φ) : Prop :=
  s.particles.past.iter = List.range s.t ∧ (0 < s.t → ∃ c, s.cur = some c ∧ c.it.iter = s.t - 1)

/-- The `iter` column after the warm-up of `W` iterations. -/
def Stuck (W : ℕ) (s : Sampler d B Φ) : Prop :=
  s.particles.past.iter = List.range W ++ List.replicate (s.t - W) (W - 1) ∧ W ≤ s.t ∧ ∃ c, s.cur = some c ∧ c.it.iter = W - 1

theorem CountsUp.warm {s s' : Sampler d B Φ} {i : ℕ} (h : CountsUp s) (hw : warmupStep e rnd s i = .ok s') : CountsUp s' := by
  obtain ⟨b0, hb, b, -, -, rfl⟩ := warmupStep_shape hw
  refine ⟨?_, fun _ => ⟨_, rfl, rfl⟩⟩
  simp only [Particles.update, Cols.full, warmupIter, h.1, Option.toList_some]
  rw [List.range_succ]

theorem Stuck.smc {W fuel : ℕ} {s s' : Sampler d B Φ} (h : Stuck W s) (hw : smcStep e rnd fuel s = .ok s') : Stuck W s' := by
  obtain ⟨c, c3, r, nEff, fl, fu, ug, tg, h0, h1, -, -, rfl⟩ := smcStep_shape hw
  obtain ⟨k1, k2, c', k3, k4⟩ := h
  rw [h0] at k3
  simp only [Option.some.injEq] at k3
  subst k3
  refine ⟨?_, Nat.le_succ_of_le k2, c3, rfl, h1.trans k4⟩
  simp only [Particles.update, Cols.full, k1, Option.toList_some, List.append_assoc]
  rw [h1, k4, Nat.succ_sub k2, List.replicate_succ']

/-- After the loops of a run. -/
theorem run_stuck {fuel n : ℕ} {a : RunArgs} {s s' : Sampler d B Φ} (hs : CountsUp s) (hw : s.warmup = true)
    (hW : 0 < e.nPrior / e.nActive) (hr : (run e rnd fuel n a s).2 = .ok s') : Stuck (s.t + e.nPrior / e.nActive) s' := by
  obtain ⟨s1, s2, s3, h1, h2, h3, h4⟩ := run_ok hr
  obtain ⟨i1, i2, i3, i4, -⟩ := runInit_t h1
  have p1 : CountsUp s1 := by unfold CountsUp; rw [i1, i3, i4]; exact hs
  obtain ⟨s1', h2', rfl⟩ := runWarmup_true (i2.trans hw) h2
  have ht := warmupLoop_t _ _ _ _ h2'
  have p2 := (TraceP.warmupLoop (e := e) (rnd := rnd) (P := CountsUp) (fun s s' i _ h hw => h.warm hw) _ _ _ 0 s1 (Nat.zero_add _).le p1).2 _ h2'
  have p2' : Stuck (s.t + e.nPrior / e.nActive) { s1' with warmup := false } := by
    obtain ⟨q1, q2⟩ := p2
    have ht' : s1'.t = s.t + e.nPrior / e.nActive := by rw [ht, i1]
    refine ⟨?_, le_of_eq ht'.symm, ?_⟩
    · simp only [ht', Nat.sub_self, List.replicate_zero, List.append_nil]
      rw [q1, ht']
    · simp only
      rw [← ht']
      exact q2 (by omega)
  have p3 := (TraceP.smcLoop (e := e) (rnd := rnd) (P := Stuck (s.t + e.nPrior / e.nActive)) (fun s s' h hw => h.smc hw) _ _ _ _ p2').2 _ h3
  obtain ⟨f1, -, f3, f4, -⟩ := finalEvidence_keep h4
  unfold Stuck
  rw [f1, f3, f4]
  exact p3

/-- C58, what the `iter` column holds after a run of a new sampler: the iteration numbers of the warm-up, and for every
later iteration the number of the last warm-up iteration. -/
theorem C58_iter_column (e : SamplerEnv d B Φ) (rnd : Rnd d Φ) (fuel n : ℕ) (a : RunArgs) (s s' : Sampler d B Φ) (hb : Bool)
    (hf : Fresh e hb s) (hW : 0 < e.nPrior / e.nActive) (hr : (run e rnd fuel n a s).2 = .ok s') :
    s'.particles.past.iter = List.range (e.nPrior / e.nActive) ++
      List.replicate (s'.t - e.nPrior / e.nActive) (e.nPrior / e.nActive - 1) ∧ e.nPrior / e.nActive ≤ s'.t := by
  have h0 : CountsUp s := by
    refine ⟨?_, fun h => ?_⟩
    · rw [hf.particles, hf.t]; rfl
    · rw [hf.t] at h; omega
  obtain ⟨k1, k2, -⟩ := run_stuck h0 hf.warmup hW hr
  rw [hf.t, Nat.zero_add] at k1 k2
  exact ⟨k1, k2⟩

/-- C58 (partial): during the warm-up the recorded number is the iteration index. Missing: later iterations, see
`C58_iter_repeats`. -/
theorem C58_warmup_partial (e : SamplerEnv d B Φ) (rnd : Rnd d Φ) (fuel n : ℕ) (a : RunArgs) (s s' : Sampler d B Φ) (hb : Bool)
    (hf : Fresh e hb s) (hW : 0 < e.nPrior / e.nActive) (hr : (run e rnd fuel n a s).2 = .ok s') :
    ∀ j < e.nPrior / e.nActive, s'.particles.past.iter[j]? = some j := by
  intro j hj
  rw [(C58_iter_column e rnd fuel n a s s' hb hf hW hr).1, List.getElem?_append_left (by simpa using hj)]
  simp [hj]

/-- A run of a new sampler that returns has made at least one iteration after the warm-up. -/
theorem run_fresh_smc {fuel n : ℕ} {a : RunArgs} {s s' : Sampler d B Φ} {hb : Bool} (hf : Fresh e hb s)
    (hW : 0 < e.nPrior / e.nActive) (hr : (run e rnd fuel n a s).2 = .ok s') : e.nPrior / e.nActive < s'.t := by
  obtain ⟨s1, s2, s3, h1, h2, h3, h4⟩ := run_ok hr
  obtain ⟨i1, i2, i3, i4, -⟩ := runInit_t h1
  obtain ⟨s1', h2', rfl⟩ := runWarmup_true (i2.trans hf.warmup) h2
  have ht := warmupLoop_t _ _ _ _ h2'
  rw [i1, hf.t, Nat.zero_add] at ht
  -- after the warm-up the temperature is 0
  have p2 := (TraceP.warmupLoop (e := e) (rnd := rnd)
    (P := fun s => 0 < s.t → ∃ c, s.cur = some c ∧ c.it.beta = fin 0)
    (fun s s' i _ h hw => by
      obtain ⟨b0, hb, b, -, -, rfl⟩ := warmupStep_shape hw
      exact fun _ => ⟨_, rfl, rfl⟩) a.saveEvery s.t (e.nPrior / e.nActive) 0 s1 (Nat.zero_add _).le
        (fun h => by rw [i1, hf.t] at h; omega)).2 _ h2'
  obtain ⟨c, hc, hb0⟩ := p2 (by omega)
  rw [← (finalEvidence_keep h4).1.symm] at *
  have mono : ∀ m (s s' : Sampler d B Φ) k t0, (smcLoop e rnd fuel k t0 m s).2 = .ok s' → s.t ≤ s'.t := by
    intro m
    induction m with
    | zero =>
      intro s s' k t0 h
      unfold smcLoop at h
      split at h
      · cases h
      · simp only [Except.ok.injEq] at h; rw [h]
      · cases h
    | succ m ih =>
      intro s s' k t0 h
      unfold smcLoop at h
      split at h
      · cases h
      · simp only [Except.ok.injEq] at h; rw [h]
      · obtain ⟨u1, g1, h⟩ := andThen_ok h
        obtain ⟨u2, g2, h⟩ := andThen_ok h
        rw [save_ok g1] at g2
        have := ih _ _ _ _ h
        rw [(smcStep_keep g2).2] at this
        omega
  have hnt : ∀ b, notTermination e { s1' with warmup := false } = .ok b → b = true := by
    intro b h
    obtain ⟨ess, k1, k2⟩ := bind_ok h
    obtain ⟨c', k2, k3⟩ := bind_ok k2
    have : c' = c := by
      have := orErr_ok k2
      simp only [hc, Option.some.injEq] at this
      exact this.symm
    subst this
    simp only [pure, Except.pure, Except.ok.injEq, hb0, fin_sub, ge_iff_le, F.fin_le] at k3
    rw [← k3, show decide ((1e-4 : ℝ) ≤ 1 - 0) = true from by simp; norm_num]
    rfl
  unfold smcLoop at h3
  split at h3
  · cases h3
  · rename_i hn; exact absurd (hnt _ hn) (by simp)
  · cases n with
    | zero => cases h3
    | succ m =>
      obtain ⟨u1, g1, h3⟩ := andThen_ok h3
      obtain ⟨u2, g2, h3⟩ := andThen_ok h3
      rw [save_ok g1] at g2
      have m1 := mono _ _ _ _ _ h3
      have m2 := (smcStep_keep g2).2
      simp only [ht] at m2
      omega

/-- C58 is false: every run of a new sampler that returns has recorded the same number for two different iterations. -/
theorem C58_iter_repeats (e : SamplerEnv d B Φ) (rnd : Rnd d Φ) (fuel n : ℕ) (a : RunArgs) (s s' : Sampler d B Φ) (hb : Bool)
    (hf : Fresh e hb s) (hW : 0 < e.nPrior / e.nActive) (hr : (run e rnd fuel n a s).2 = .ok s') :
    ∃ i j v : ℕ, i < j ∧ s'.particles.past.iter[i]? = some v ∧ s'.particles.past.iter[j]? = some v := by
  obtain ⟨k1, k2⟩ := C58_iter_column e rnd fuel n a s s' hb hf hW hr
  have k3 := run_fresh_smc hf hW hr
  generalize e.nPrior / e.nActive = W at *
  refine ⟨W - 1, W, W - 1, by omega, ?_, ?_⟩
  · rw [k1, List.getElem?_append_left (by rw [List.length_range]; omega), List.getElem?_range (by omega)]
  · rw [k1, List.getElem?_append_right (by rw [List.length_range]), List.length_range, List.getElem?_replicate, if_pos (by omega)]

/-! ### C55 -/

/-- The main loop does not depend on the save options (as long as `save_every` is not 0). -/
theorem smcLoop_indep {fuel : ℕ} {k k' : Option ℕ} (hk : k' ≠ some 0) {t0 t0' : ℕ} (n : ℕ) : ∀ s s' : Sampler d B Φ,
    (smcLoop e rnd fuel k t0 n s).2 = .ok s' → (smcLoop e rnd fuel k' t0' n s).2 = .ok s' := by
  have hsave : ∀ s : Sampler d B Φ, (Trace.save k' t0' s).2 = .ok s := by
    intro s
    unfold Trace.save saveNow
    cases k' with
    | none => rfl
    | some k' =>
      have : k' ≠ 0 := fun h => hk (by rw [h])
      simp only [this, if_false]
      split_ifs <;> rfl
  have snd : ∀ (t : Trace d B Φ) (f : Sampler d B Φ → Trace d B Φ) (s : Sampler d B Φ), t.2 = .ok s → (t.andThen f).2 = (f s).2 := by
    rintro ⟨l, r⟩ f s h
    simp only at h
    subst h
    rfl
  induction n with
  | zero =>
    intro s s' h
    unfold smcLoop at h ⊢
    cases hn : notTermination e s with
    | error x => simp only [hn] at h; cases h
    | ok b => cases b <;> simp only [hn] at h ⊢ <;> exact h
  | succ n ih =>
    intro s s' h
    unfold smcLoop at h ⊢
    cases hn : notTermination e s with
    | error x => simp only [hn] at h; cases h
    | ok b =>
      cases b
      · simp only [hn] at h ⊢; exact h
      · simp only [hn] at h ⊢
        obtain ⟨s1, h1, h⟩ := andThen_ok h
        obtain ⟨s2, h2, h⟩ := andThen_ok h
        rw [save_ok h1] at h2
        rw [snd _ _ s (hsave s), snd _ _ s2 h2]
        exact ih s2 s' h

/-- Continuing from a state file of the main loop gives what the main loop gives. -/
theorem smcLoop_resume {fuel : ℕ} {k : Option ℕ} {t0 : ℕ} (n : ℕ) : ∀ (s s' : Sampler d B Φ) (sv : Save d B Φ),
    (smcLoop e rnd fuel k t0 n s).2 = .ok s' → sv ∈ (smcLoop e rnd fuel k t0 n s).1 →
    ∃ m, (smcLoop e rnd fuel k t0 m sv.state).2 = .ok s' := by
  induction n with
  | zero =>
    intro s s' sv h hsv
    unfold smcLoop at h hsv
    cases hn : notTermination e s with
    | error x => simp only [hn] at h; cases h
    | ok b => cases b <;> simp only [hn] at h hsv <;> simp at hsv
  | succ n ih =>
    intro s s' sv h hsv
    have hfull := h
    unfold smcLoop at h hsv
    cases hn : notTermination e s with
    | error x => simp only [hn] at h; cases h
    | ok b =>
      cases b
      · simp only [hn] at hsv; simp at hsv
      · simp only [hn] at h hsv
        obtain ⟨s1, h1, h'⟩ := andThen_ok h
        obtain ⟨s2, h2, h''⟩ := andThen_ok h'
        have hs1 := save_ok h1
        subst hs1
        cases hsvl : Trace.save k t0 s1 with
        | mk l r =>
          rw [hsvl] at h1
          simp only at h1
          subst h1
          simp only [hsvl, Trace.andThen, Trace.lift] at hsv
          have h2' : smcStep e rnd fuel s1 = .ok s2 := h2
          rw [h2'] at hsv
          simp only [List.nil_append, List.mem_append] at hsv
          rcases hsv with hsv | hsv
          · have : sv.state = s1 := save_mem (k := k) (t0 := t0) (by rw [hsvl]; exact hsv)
            rw [this]
            exact ⟨n + 1, hfull⟩
          · exact ih s2 s' sv h'' hsv

/-- C55 (partial): continuing, with the same draws, from a state file written after the warm-up gives the same result as the
uninterrupted run: from the file of an iteration the identical sampler state, from the final file the same particles and
evidence. Missing: files written during the warm-up, for which the claim is false (`C55_warmup_restarts`). -/
theorem C55_resume_partial (e : SamplerEnv d B Φ) (rnd : Rnd d Φ) (fuel n : ℕ) (a a' : RunArgs) (s s' : Sampler d B Φ)
    (hr : (run e rnd fuel n a s).2 = .ok s') (sv : Save d B Φ) (hsv : sv ∈ (run e rnd fuel n a s).1)
    (hw : sv.state.warmup = false) (ha1 : a'.nTotal = a.nTotal) (ha2 : a'.nEvidence = a.nEvidence) (ha3 : a'.saveEvery ≠ some 0) :
    ∃ m s'', (run e rnd fuel m a' sv.state).2 = .ok s'' ∧
      (sv.name ≠ .final → s'' = s') ∧
      s''.particles = s'.particles ∧ s''.logz = s'.logz ∧ s''.logzErr = s'.logzErr := by
  obtain ⟨s1, s2, s3, h1, h2, h3, h4⟩ := run_ok hr
  -- the four parts of the resumed run
  have snd : ∀ (t : Trace d B Φ) (f : Sampler d B Φ → Trace d B Φ) (s : Sampler d B Φ), t.2 = .ok s → (t.andThen f).2 = (f s).2 := by
    rintro ⟨l, r⟩ f s h
    simp only at h
    subst h
    rfl
  have resumed : ∀ (q q3 q' : Sampler d B Φ) m, q.warmup = false → (∃ ps, q.priorSamples = some ps) → q.nTotal = a.nTotal →
      q.nEvidence = a.nEvidence → (smcLoop e rnd fuel a'.saveEvery q.t m q).2 = .ok q3 → finalEvidence e rnd q3 = .ok q' →
      (run e rnd fuel m a' q).2 = .ok q' := by
    rintro q q3 q' m hq1 ⟨ps, hq2⟩ hq3 hq4 hl he
    have hi : runInit e rnd a' q = .ok q := by
      unfold runInit
      simp only [hq2, ha1, ha2, ← hq3, ← hq4]
      rw [← hq2]
    unfold run
    dsimp only
    rw [snd (Trace.lift (runInit e rnd a' q)) _ q hi]
    have hwm : (runWarmup e rnd a' q.t q).2 = .ok q := by
      unfold runWarmup; simp [hq1]
    rw [snd _ _ q hwm, snd _ _ q3 hl, snd (Trace.lift (finalEvidence e rnd q3)) _ q' he]
  -- what is constant in the loops
  let K : Sampler d B Φ → Prop := fun q => (∃ ps, q.priorSamples = some ps) ∧ q.nTotal = a.nTotal ∧ q.nEvidence = a.nEvidence
  have k1 : K s1 := by
    rcases runInit_ok h1 with ⟨⟨ps, hps⟩, rfl⟩ | ⟨-, sc, -, rfl⟩
    · exact ⟨⟨ps, hps⟩, rfl, rfl⟩
    · exact ⟨⟨_, rfl⟩, rfl, rfl⟩
  have k2 : K s2 := (TraceP.runWarmup (e := e) (rnd := rnd) (P := K)
    (fun s s' i _ hs hw => by
      obtain ⟨b0, hb, b, -, -, rfl⟩ := warmupStep_shape hw
      obtain ⟨⟨ps, hps⟩, h2⟩ := hs
      exact ⟨⟨_, by simp only [hps]; rfl⟩, h2⟩) (fun s hs => hs) a s.t s1 k1).2 s2 h2
  have k3 := TraceP.smcLoop (e := e) (rnd := rnd) (fuel := fuel) (P := K)
    (fun s s' hs hw => by obtain ⟨c, c3, r, nEff, fl, fu, ug, tg, -, -, -, -, rfl⟩ := smcStep_shape hw; exact hs)
    a.saveEvery s.t n s2 k2
  obtain ⟨hwl1, hwl2⟩ := Along.runWarmup (e := e) (rnd := rnd) a s.t s1
  have hw2 := hwl2 s2 h2
  -- where the file comes from
  unfold run at hsv
  dsimp only at hsv
  have mem : ∀ (t : Trace d B Φ) (f : Sampler d B Φ → Trace d B Φ) (q : Sampler d B Φ), t.2 = .ok q →
      sv ∈ (t.andThen f).1 → sv ∈ t.1 ∨ sv ∈ (f q).1 := by
    rintro ⟨l, r⟩ f q h hm
    simp only at h
    subst h
    exact List.mem_append.mp hm
  rcases mem _ _ s1 h1 hsv with hsv | hsv
  · simp [Trace.lift] at hsv
  rcases mem _ _ s2 h2 hsv with hsv | hsv
  · -- warm-up: impossible
    exfalso
    unfold runWarmup at hsv
    cases hww : s1.warmup with
    | false => simp [hww] at hsv
    | true =>
      simp only [hww, if_true] at hsv
      split_ifs at hsv with hz
      · simp at hsv
      · have hP := TraceP.warmupLoop (e := e) (rnd := rnd) (P := fun q => q.warmup = true)
          (fun s s' i _ hs hw => (warmupStep_warmup hw).1.trans hs) a.saveEvery s.t (e.nPrior / e.nActive) 0 s1 (Nat.zero_add _).le hww
        have : sv ∈ (warmupLoop e rnd a.saveEvery s.t (e.nPrior / e.nActive) 0 s1).1 := by
          revert hsv
          cases warmupLoop e rnd a.saveEvery s.t (e.nPrior / e.nActive) 0 s1 with
          | mk l r => cases r <;> simp [Trace.andThen]
        have h5 : sv.state.warmup = true := hP.1 sv this
        rw [hw] at h5
        cases h5
  rcases mem _ _ s3 h3 hsv with hsv | hsv
  · -- main loop
    obtain ⟨m, hm⟩ := smcLoop_resume n s2 s3 sv h3 hsv
    have hm' := smcLoop_indep (k' := a'.saveEvery) ha3 (t0' := sv.state.t) m _ _ hm
    have hk := k3.1 sv hsv
    exact ⟨m, s', resumed sv.state s3 s' m hw hk.1 hk.2.1 hk.2.2 hm' h4, fun _ => rfl, rfl, rfl, rfl⟩
  rcases mem _ _ s' h4 hsv with hsv | hsv
  · simp [Trace.lift] at hsv
  · -- the final file
    have hsv' : sv.name = .final ∧ sv.state = s' := by
      cases hse : a.saveEvery with
      | none => simp [hse] at hsv
      | some k => simp [hse] at hsv; rw [hsv]; exact ⟨rfl, rfl⟩
    obtain ⟨hn, hst⟩ := hsv'
    rw [hst] at hw ⊢
    have hk := k3.2 s3 h3
    obtain ⟨f1, f2, f3, f4, f5, f6, f7, f8, f9⟩ := finalEvidence_keep h4
    have hnt : notTermination e s' = .ok false := by
      obtain ⟨-, hl2⟩ := Along.smcLoop (e := e) (rnd := rnd) fuel a.saveEvery s.t n s2 hw2
      have := (hl2 s3 h3).2
      unfold notTermination at this ⊢
      rw [f3, f4, f5]; exact this
    have hl : (smcLoop e rnd fuel a'.saveEvery s'.t 0 s').2 = .ok s' := by
      unfold smcLoop; simp [hnt]
    have hev : ∃ s'', finalEvidence e rnd s' = .ok s'' ∧ s''.particles = s'.particles ∧ s''.logz = s'.logz ∧ s''.logzErr = s'.logzErr := by
      rcases finalEvidence_ok h4 with ⟨g1, g2, h⟩ | ⟨g, lw, z, hc, heq⟩
      · have hfe : finalEvidence e rnd s' = computeEvidence e rnd s'.nEvidence s' := by
          unfold finalEvidence
          rw [if_pos ⟨by rw [f6]; exact g1, g2⟩]
        rw [hfe]
        obtain ⟨inv, ll, bl, hbl, q1, q2, q3⟩ := computeEvidence_ok h
        unfold computeEvidence
        rw [f1, f7, f8, f6]
        simp only [bind, Except.bind, q1, q2, pure, Except.pure]
        refine ⟨_, rfl, rfl, ?_, ?_⟩
        · rw [q3]
        · rw [q3]
      · unfold finalEvidence
        rw [if_neg (by rw [f6]; exact g), f3]
        simp only [bind, Except.bind, hc, pure, Except.pure]
        refine ⟨_, rfl, rfl, ?_, ?_⟩
        · rw [heq]
        · rw [heq]
    obtain ⟨s'', e1, e2, e3, e4⟩ := hev
    refine ⟨0, s'', resumed s' s' s'' 0 hw (by rw [f9]; exact hk.1) (f5.trans hk.2.1) (f6.trans hk.2.2) hl e1, fun h => absurd hn h, e2, e3, e4⟩

/-- C55 is false for state files written during the warm-up: resuming from such a file repeats the whole warm-up on top of
the batches already stored, so that whatever the draws and arguments the resumed run, if it returns, never ends with the
history of the uninterrupted run. -/
theorem C55_warmup_restarts (e : SamplerEnv d B Φ) (rnd rnd' : Rnd d Φ) (fuel n fuel' n' : ℕ) (a a' : RunArgs) (s s' s'' : Sampler d B Φ)
    (hb : Bool) (hf : Fresh e hb s) (hW : 0 < e.nPrior / e.nActive) (hr : (run e rnd fuel n a s).2 = .ok s')
    (sv : Save d B Φ) (hsv : sv ∈ (run e rnd fuel n a s).1) (hw : sv.state.warmup = true)
    (hr' : (run e rnd' fuel' n' a' sv.state).2 = .ok s'') :
    (∃ v ∈ s''.particles.past.iter, v ∉ s'.particles.past.iter) ∧ s''.particles.past ≠ s'.particles.past := by
  have main : ∃ v ∈ s''.particles.past.iter, v ∉ s'.particles.past.iter := by
    obtain ⟨k1, k2⟩ := C58_iter_column e rnd fuel n a s s' hb hf hW hr
    -- the file was written in the warm-up
    have hcount : CountsUp sv.state ∧ 0 < sv.state.t := by
      have h0 : CountsUp s := by
        refine ⟨?_, fun h => ?_⟩
        · rw [hf.particles, hf.t]; rfl
        · rw [hf.t] at h; omega
      have hm := (Along.run (e := e) (rnd := rnd) fuel n a s).from_start sv hsv
      have hP : ∀ q, Moves e rnd s q → q.warmup = true → CountsUp q := by
        intro q hq
        induction hq with
        | refl => exact fun _ => h0
        | tail _ hmv ih =>
          intro hq
          cases hmv with
          | init a h1 =>
            obtain ⟨i1, i2, i3, i4, -⟩ := runInit_t h1
            have := ih (i2 ▸ hq)
            unfold CountsUp; rw [i1, i3, i4]; exact this
          | warm i hw' hi h => exact (ih hw').warm h
          | endWarm hw' => cases hq
          | smc fuel hw' h => rw [(smcStep_keep h).1, hw'] at hq; cases hq
          | evidence hw' h => rw [(finalEvidence_keep h).2.1, hw'] at hq; cases hq
      refine ⟨hP _ hm hw, ?_⟩
      -- files are written after the first iteration
      cases hse : a.saveEvery with
      | none => rw [(C56_schedule e rnd fuel n a s).1 hse] at hsv; simp at hsv
      | some k =>
        have hk : 0 < k := by
          by_contra hk
          have : k = 0 := by omega
          subst this
          obtain ⟨s1, s2, s3, h1, h2, h3, h4⟩ := run_ok hr
          obtain ⟨i1, i2, i3, i4, -⟩ := runInit_t h1
          obtain ⟨s1', h2', rfl⟩ := runWarmup_true (i2.trans hf.warmup) h2
          obtain ⟨W, hW'⟩ : ∃ W, e.nPrior / e.nActive = W + 1 := ⟨e.nPrior / e.nActive - 1, by omega⟩
          rw [hW'] at h2'
          obtain ⟨u1, g1, -⟩ := andThen_ok h2'
          simp [Trace.save, saveNow, hse] at g1
        obtain ⟨c1, -, c3⟩ := (C56_schedule e rnd fuel n a s).2 k hse hk
        have hnames := c1 s' hr
        rcases c3 sv hsv with hn | ⟨-, hn⟩
        · have : SaveName.iter sv.state.t ∈ (schedule k s.t s'.t).map SaveName.iter ++ [.final] := by
            rw [← hnames, ← hn]; exact List.mem_map_of_mem hsv
          simp only [List.mem_append, List.mem_map, List.mem_singleton, reduceCtorEq, or_false, SaveName.iter.injEq, exists_eq_right] at this
          unfold schedule at this
          have := (List.mem_filter.mp this).2
          simp only [decide_eq_true_eq] at this
          rw [hf.t] at this
          omega
        · rw [hr] at hn
          simp only [Except.ok.injEq] at hn
          have := run_fresh_smc hf hW hr
          rw [hn] at this; omega
    obtain ⟨q1, q2, -⟩ := run_stuck hcount.1 hw hW hr'
    refine ⟨sv.state.t + e.nPrior / e.nActive - 1, ?_, ?_⟩
    · rw [q1]
      refine List.mem_append_left _ ?_
      rw [List.mem_range]; omega
    · rw [k1]
      intro hmem
      rcases List.mem_append.mp hmem with h | h
      · rw [List.mem_range] at h; omega
      · rw [List.mem_replicate] at h; omega
  refine ⟨main, fun h => ?_⟩
  obtain ⟨v, h1, h2⟩ := main
  rw [h] at h1
  exact h2 h1

end

end Poco
