import Verif.Props.Warmup

/-! The moves a run is made of, and the invariant of every reachable state. -/

namespace Poco
open F Spec

variable {d : ℕ} {B Φ : Type}

/-! ### moves -/

/-- The states along a piece of a run are connected by moves. -/
structure Along (e : SamplerEnv d B Φ) (rnd : Rnd d Φ) (s : Sampler d B Φ) (t : Trace d B Φ) : Prop where
  from_start : ∀ sv ∈ t.1, Moves e rnd s sv.state
  ordered : t.1.Pairwise fun a b => Moves e rnd a.state b.state
  to_end : ∀ s', t.2 = .ok s' → Moves e rnd s s' ∧ ∀ sv ∈ t.1, Moves e rnd sv.state s'

theorem Along.andThen {e : SamplerEnv d B Φ} {rnd : Rnd d Φ} {s : Sampler d B Φ} {t : Trace d B Φ}
    {f : Sampler d B Φ → Trace d B Φ} (h1 : Along e rnd s t) (h2 : ∀ s', t.2 = .ok s' → Along e rnd s' (f s')) :
    Along e rnd s (t.andThen f) := by
  obtain ⟨l, r⟩ := t
  cases r with
  | error x => exact ⟨h1.from_start, h1.ordered, fun s' h => by cases h⟩
  | ok s1 =>
    have k := h2 s1 rfl
    obtain ⟨e1, e2⟩ := h1.to_end s1 rfl
    refine ⟨?_, ?_, ?_⟩
    · intro sv hsv
      rcases List.mem_append.mp hsv with hsv | hsv
      · exact h1.from_start sv hsv
      · exact e1.trans (k.from_start sv hsv)
    · exact List.pairwise_append.mpr ⟨h1.ordered, k.ordered, fun a ha b hb => (e2 a ha).trans (k.from_start b hb)⟩
    · intro s' hs'
      obtain ⟨m1, m2⟩ := k.to_end s' hs'
      refine ⟨e1.trans m1, fun sv hsv => ?_⟩
      rcases List.mem_append.mp hsv with hsv | hsv
      · exact (e2 sv hsv).trans m1
      · exact m2 sv hsv

theorem Along.lift {e : SamplerEnv d B Φ} {rnd : Rnd d Φ} {s : Sampler d B Φ} {a : Except PyErr (Sampler d B Φ)}
    (h : ∀ s', a = .ok s' → Move e rnd s s') : Along e rnd s (Trace.lift a) :=
  ⟨by simp [Trace.lift], by simp [Trace.lift], fun s' hs' => ⟨.single (h s' hs'), by simp [Trace.lift]⟩⟩

theorem Along.refl {e : SamplerEnv d B Φ} {rnd : Rnd d Φ} (s : Sampler d B Φ) : Along e rnd s ([], .ok s) :=
  ⟨by simp, by simp, fun s' hs' => by simp only [Except.ok.injEq] at hs'; subst hs'; exact ⟨.refl, by simp⟩⟩

theorem save_mem {k : Option ℕ} {t0 : ℕ} {s : Sampler d B Φ} {sv : Save d B Φ} (h : sv ∈ (Trace.save k t0 s).1) :
    sv.state = s := by
  unfold Trace.save saveNow at h
  cases k with
  | none => simp at h
  | some k =>
    simp only at h
    split_ifs at h <;> simp at h
    rw [h]

theorem save_ok {k : Option ℕ} {t0 : ℕ} {s s' : Sampler d B Φ} (h : (Trace.save k t0 s).2 = .ok s') : s' = s := by
  unfold Trace.save at h
  split at h
  · cases h
  · simp only [Except.ok.injEq] at h; exact h.symm

theorem Along.save {e : SamplerEnv d B Φ} {rnd : Rnd d Φ} (k : Option ℕ) (t0 : ℕ) (s : Sampler d B Φ) :
    Along e rnd s (Trace.save k t0 s) := by
  refine ⟨fun sv hsv => by rw [save_mem hsv], ?_, fun s' hs' => ?_⟩
  · rw [List.pairwise_iff_getElem]
    intro i j hi hj _
    rw [save_mem (List.getElem_mem hi), save_mem (List.getElem_mem hj)]
  · rw [save_ok hs']
    exact ⟨.refl, fun sv hsv => by rw [save_mem hsv]⟩

theorem warmupStep_warmup {e : SamplerEnv d B Φ} {rnd : Rnd d Φ} {s s' : Sampler d B Φ} {i : ℕ}
    (h : warmupStep e rnd s i = .ok s') : s'.warmup = s.warmup ∧ s'.t = s.t + 1 := by
  unfold warmupStep at h
  obtain ⟨⟨b0, hb⟩, h1, h⟩ := bind_ok h
  obtain ⟨b, h2, h⟩ := bind_ok h
  simp only [pure, Except.pure, Except.ok.injEq] at h
  subst h
  exact ⟨rfl, rfl⟩

theorem Along.warmupLoop {e : SamplerEnv d B Φ} {rnd : Rnd d Φ} (k : Option ℕ) (t0 : ℕ) (n : ℕ) :
    ∀ (i : ℕ) (s : Sampler d B Φ), s.warmup = true → i + n ≤ e.nPrior / e.nActive →
      Along e rnd s (Poco.warmupLoop e rnd k t0 n i s) ∧
      ∀ s', (Poco.warmupLoop e rnd k t0 n i s).2 = .ok s' → s'.warmup = true := by
  induction n with
  | zero =>
    intro i s hw _
    refine ⟨Along.refl s, fun s' hs' => ?_⟩
    simp only [Poco.warmupLoop, Except.ok.injEq] at hs'
    rw [← hs']; exact hw
  | succ n ih =>
    intro i s hw hi
    have key : ∀ s1, (Trace.save k t0 s).2 = .ok s1 → ∀ s2, (Trace.lift (warmupStep e rnd s1 i)).2 = .ok s2 →
        s1.warmup = true ∧ s2.warmup = true ∧ Move e rnd s1 s2 := by
      intro s1 h1 s2 h2
      rw [save_ok h1] at *
      have := warmupStep_warmup h2
      exact ⟨hw, this.1.trans hw, .warm i hw (by omega) h2⟩
    constructor
    · refine (Along.save k t0 s).andThen fun s1 h1 => ?_
      refine (Along.lift fun s2 h2 => (key s1 h1 s2 h2).2.2).andThen fun s2 h2 => ?_
      exact (ih (i + 1) s2 (key s1 h1 s2 h2).2.1 (by omega)).1
    · intro s' hs'
      unfold Poco.warmupLoop at hs'
      unfold Trace.andThen at hs'
      split at hs'
      · cases hs'
      · rename_i s1 h1
        simp only at hs'
        split at hs'
        · cases hs'
        · rename_i s2 h2
          exact (ih (i + 1) s2 (key s1 (by rw [h1]) s2 (by rw [h2])).2.1 (by omega)).2 s' hs'

theorem andThen_ok {t : Trace d B Φ} {f : Sampler d B Φ → Trace d B Φ} {s' : Sampler d B Φ} (h : (t.andThen f).2 = .ok s') :
    ∃ s1, t.2 = .ok s1 ∧ (f s1).2 = .ok s' := by
  unfold Trace.andThen at h
  split at h
  · cases h
  · exact ⟨_, rfl, h⟩

theorem reweight_keep {e : SamplerEnv d B Φ} {fuel : ℕ} {s s' : Sampler d B Φ} {c c' : Cur d B}
    (h : reweight e fuel s c = .ok (s', c')) : ∃ n, s' = { s with t := s.t + 1, nEffective := n } := by
  obtain ⟨n, beta, logz, ess, w, tr, -, -, -, -, h5⟩ := reweight_ok h
  exact ⟨n, h5⟩

theorem smcStep_keep {e : SamplerEnv d B Φ} {rnd : Rnd d Φ} {fuel : ℕ} {s s' : Sampler d B Φ}
    (h : smcStep e rnd fuel s = .ok s') : s'.warmup = s.warmup ∧ s'.t = s.t + 1 := by
  obtain ⟨c, s1, c1, s2, c2, s3, c3, h0, h1, h2, h3, h4, rfl⟩ := smcStep_ok h
  obtain ⟨n, rfl⟩ := reweight_keep h1
  obtain ⟨ws, k, r, -, -, -, h5⟩ := mutate_ok h4
  simp only [writeBack, Prod.mk.injEq] at h5
  obtain ⟨rfl, rfl⟩ := h5
  rcases train_ok h2 with ⟨-, flow, g, rfl⟩ | ⟨-, g, rfl⟩ <;> exact ⟨rfl, rfl⟩

theorem Along.smcLoop {e : SamplerEnv d B Φ} {rnd : Rnd d Φ} (fuel : ℕ) (k : Option ℕ) (t0 : ℕ) (n : ℕ) :
    ∀ (s : Sampler d B Φ), s.warmup = false → Along e rnd s (Poco.smcLoop e rnd fuel k t0 n s) ∧
      ∀ s', (Poco.smcLoop e rnd fuel k t0 n s).2 = .ok s' → s'.warmup = false ∧ notTermination e s' = .ok false := by
  induction n with
  | zero =>
    intro s hw
    unfold Poco.smcLoop
    cases hn : notTermination e s with
    | error x => exact ⟨⟨by simp, by simp, fun s' h => by cases h⟩, fun s' h => by cases h⟩
    | ok b =>
      cases b with
      | true => exact ⟨⟨by simp, by simp, fun s' h => by cases h⟩, fun s' h => by cases h⟩
      | false =>
        refine ⟨Along.refl s, fun s' hs' => ?_⟩
        simp only [Except.ok.injEq] at hs'
        rw [← hs']; exact ⟨hw, hn⟩
  | succ n ih =>
    intro s hw
    unfold Poco.smcLoop
    cases hn : notTermination e s with
    | error x => exact ⟨⟨by simp, by simp, fun s' h => by cases h⟩, fun s' h => by cases h⟩
    | ok b =>
      cases b with
      | false =>
        refine ⟨Along.refl s, fun s' hs' => ?_⟩
        simp only [Except.ok.injEq] at hs'
        rw [← hs']; exact ⟨hw, hn⟩
      | true =>
        simp only
        have key : ∀ s1, (Trace.save k t0 s).2 = .ok s1 → ∀ s2, (Trace.lift (smcStep e rnd fuel s1)).2 = .ok s2 →
            s2.warmup = false ∧ Move e rnd s1 s2 := by
          intro s1 h1 s2 h2
          rw [save_ok h1] at *
          exact ⟨(smcStep_keep h2).1.trans hw, .smc fuel hw h2⟩
        constructor
        · refine (Along.save k t0 s).andThen fun s1 h1 => ?_
          refine (Along.lift fun s2 h2 => (key s1 h1 s2 h2).2).andThen fun s2 h2 => ?_
          exact (ih s2 (key s1 h1 s2 h2).1).1
        · intro s' hs'
          obtain ⟨s1, h1, hs'⟩ := andThen_ok hs'
          obtain ⟨s2, h2, hs'⟩ := andThen_ok hs'
          exact (ih s2 (key s1 h1 s2 h2).1).2 s' hs'

theorem Along.runWarmup {e : SamplerEnv d B Φ} {rnd : Rnd d Φ} (a : RunArgs) (t0 : ℕ) (s : Sampler d B Φ) :
    Along e rnd s (Poco.runWarmup e rnd a t0 s) ∧
      ∀ s', (Poco.runWarmup e rnd a t0 s).2 = .ok s' → s'.warmup = false := by
  unfold Poco.runWarmup
  cases hw : s.warmup with
  | false =>
    simp only [Bool.false_eq_true, if_false]
    refine ⟨Along.refl s, fun s' hs' => ?_⟩
    simp only [Except.ok.injEq] at hs'
    rw [← hs']; exact hw
  | true =>
    simp only [if_true]
    by_cases hz : e.nActive = 0
    · rw [if_pos hz]
      exact ⟨⟨by simp, by simp, fun s' h => by cases h⟩, fun s' h => by cases h⟩
    · rw [if_neg hz]
      obtain ⟨w1, w2⟩ := Along.warmupLoop (e := e) (rnd := rnd) a.saveEvery t0 (e.nPrior / e.nActive) 0 s hw (by omega)
      constructor
      · refine w1.andThen fun s1 h1 => ?_
        refine ⟨by simp, by simp, fun s' hs' => ?_⟩
        simp only [Except.ok.injEq] at hs'
        subst hs'
        exact ⟨.single (.endWarm (w2 s1 h1)), by simp⟩
      · intro s' hs'
        obtain ⟨s1, h1, hs'⟩ := andThen_ok hs'
        simp only [Except.ok.injEq] at hs'
        subst hs'
        rfl

/-- A run that returns: its four parts. -/
theorem run_ok {e : SamplerEnv d B Φ} {rnd : Rnd d Φ} {fuel n : ℕ} {a : RunArgs} {s s' : Sampler d B Φ}
    (h : (run e rnd fuel n a s).2 = .ok s') :
    ∃ s1 s2 s3, runInit e rnd a s = .ok s1 ∧ (runWarmup e rnd a s.t s1).2 = .ok s2 ∧
      (smcLoop e rnd fuel a.saveEvery s.t n s2).2 = .ok s3 ∧ finalEvidence e rnd s3 = .ok s' := by
  unfold run at h
  obtain ⟨s1, h1, h⟩ := andThen_ok h
  obtain ⟨s2, h2, h⟩ := andThen_ok h
  obtain ⟨s3, h3, h⟩ := andThen_ok h
  obtain ⟨s4, h4, h⟩ := andThen_ok h
  simp only [Except.ok.injEq] at h
  subst h
  exact ⟨s1, s2, s3, h1, h2, h3, h4⟩

/-- The states of a whole run are connected by moves. -/
theorem Along.run {e : SamplerEnv d B Φ} {rnd : Rnd d Φ} (fuel n : ℕ) (a : RunArgs) (s : Sampler d B Φ) :
    Along e rnd s (Poco.run e rnd fuel n a s) := by
  unfold Poco.run
  refine (Along.lift fun s' h => .init a h).andThen fun s1 h1 => ?_
  obtain ⟨w1, w2⟩ := Along.runWarmup (e := e) (rnd := rnd) a s.t s1
  refine w1.andThen fun s2 h2 => ?_
  obtain ⟨l1, l2⟩ := Along.smcLoop (e := e) (rnd := rnd) fuel a.saveEvery s.t n s2 (w2 s2 h2)
  refine l1.andThen fun s3 h3 => ?_
  refine (Along.lift fun s' h => .evidence (l2 s3 h3).1 h).andThen fun s4 h4 => ?_
  cases a.saveEvery with
  | none => exact Along.refl s4
  | some k =>
    refine ⟨fun sv hsv => ?_, by simp, fun s' hs' => ?_⟩
    · simp only [List.mem_singleton] at hsv
      subst hsv
      exact .refl
    · simp only [Except.ok.injEq] at hs'
      subst hs'
      refine ⟨.refl, fun sv hsv => ?_⟩
      simp only [List.mem_singleton] at hsv
      subst hsv
      exact .refl

/-! ### the invariant -/

/-- What holds in every state of every session, `its` being the iterations in the store. -/
structure Inv (e : SamplerEnv d B Φ) (ll lp : Pt d → F) (bb : Pt d → List B) (hb : Bool) (s : Sampler d B Φ)
    (its : List (Iter d (List B))) : Prop where
  past : s.particles.past = columns its
  rows : ∀ it ∈ its, HasRows e.nActive hb (GoodRow s.scaler ll lp bb hb) it
  cur : s.cur.map (·.it) = its.getLast?
  betas : ∃ bs : List ℝ, its.map (·.beta) = bs.map fin ∧ bs.Pairwise (· ≤ ·) ∧ ∀ b ∈ bs, 0 ≤ b ∧ b ≤ 1
  logz : ProperLike ll → ∀ it ∈ its, ∃ z, it.logz = fin z
  blobs : its ≠ [] → s.haveBlobs = hb
  blobs' : s.haveBlobs = true → hb = true
  bounds : ProperBounds s.scaler.low s.scaler.high
  scale : s.scaler.scale = true
  noPrior : s.priorSamples = none → its = []
  prior : ∀ ps, s.priorSamples = some ps → s.scaler.Ok ∧ ∃ xs : List (Fin d → ℝ), ps = xs.map pt ∧ xs.length = e.nPrior ∧
    ∀ x ∈ xs, StrictlyInside s.scaler.low s.scaler.high x
  geo : s.flowUntrained = false → s.thetaGeometry.isSome = true
  warm : s.warmup = true → ∀ it ∈ its, it.beta = fin 0

/-- A store of finite log-likelihoods, temperatures and evidences, as real numbers. -/
theorem holds_of {n : ℕ} (hn : 0 < n) {hb : Bool} {P : Row d B → Prop} {its : List (Iter d B)} (hne : its ≠ [])
    (hr : ∀ it ∈ its, HasRows n hb P it) (hP : ∀ r, P r → ∃ l, r.logl = fin l)
    {bs : List ℝ} (hb' : its.map (·.beta) = bs.map fin) (hz : ∀ it ∈ its, ∃ z, it.logz = fin z) :
    ∃ h : List Stage, Holds (columns its) h ∧ Rect h n ∧ h.map (·.beta) = bs ∧
      its.map (·.logz) = h.map (fun s => fin s.logz) := by
  have key : ∃ h : List Stage, h.length = its.length ∧ (its.map fun it => it.logl) = h.map (fun s => s.logl.map fin) ∧
      h.map (·.beta) = bs ∧ (its.map fun it => it.logz) = h.map (fun s => fin s.logz) ∧ ∀ s ∈ h, s.logl.length = n := by
    clear hne
    induction its generalizing bs with
    | nil =>
      refine ⟨[], rfl, rfl, ?_, rfl, by simp⟩
      simp at hb'
      simp [hb']
    | cons it its ih =>
      cases bs with
      | nil => simp at hb'
      | cons b bs =>
        simp only [List.map_cons, List.cons.injEq] at hb'
        obtain ⟨h, h0, h1, h2, h3, h4⟩ := ih (fun i hi => hr i (by simp [hi])) hb'.2 (fun i hi => hz i (by simp [hi]))
        obtain ⟨z, hz'⟩ := hz it (by simp)
        obtain ⟨rows, r1, r2, r3, -⟩ := hr it (by simp)
        obtain ⟨ls, hls⟩ : ∃ ls : List ℝ, it.logl = ls.map fin := by
          apply exists_map_fin
          intro a ha
          rw [r2.logl] at ha
          obtain ⟨r, hr', rfl⟩ := List.mem_map.mp ha
          obtain ⟨l, hl⟩ := hP r (r3 r hr')
          rw [hl]; rfl
        refine ⟨⟨b, z, ls⟩ :: h, by simp [h0], ?_, by simp [h2], ?_, ?_⟩
        · simp [h1, hls]
        · simp [h3, hz']
        · intro s hs
          rcases List.mem_cons.mp hs with rfl | hs
          · have := congrArg List.length (hls.symm.trans r2.logl)
            simp at this
            simp [this, r1]
          · exact h4 s hs
  obtain ⟨h, h0, h1, h2, h3, h4⟩ := key
  refine ⟨h, ⟨h1, ?_, h3⟩, ⟨?_, hn, h4⟩, h2, h3⟩
  · change its.map (·.beta) = _
    rw [hb', ← h2, List.map_map]
    rfl
  · rintro rfl
    exact hne (List.length_eq_zero_iff.mp h0.symm)

/-- The chosen log-evidence is a number when the history is. -/
theorem chooseBeta_logz {past : Cols d (List B) List} {h : List Stage} {n : ℕ} (hr : Rect h n) (hh : Holds past h)
    {m : Metric} {nEff : F} {fuel : ℕ} {beta logz ess : F} (b : ℝ) (hb : b ≤ 1) (hlast : past.beta.getLast? = some (fin b))
    (hc : chooseBeta past m nEff fuel = .ok (beta, logz, ess)) : ∃ z, logz = fin z := by
  obtain ⟨β, rfl, -, -⟩ := C21_beta_step past m nEff fuel b hb hlast beta logz ess hc
  simp only [chooseBeta] at hc
  obtain ⟨bp, h1, hc⟩ := bind_ok hc
  obtain ⟨ep, h2, hc⟩ := bind_ok hc
  obtain ⟨em, h3, hc⟩ := bind_ok hc
  split_ifs at hc
  · obtain ⟨z, h4, hc⟩ := bind_ok hc
    simp only [pure, Except.pure, Except.ok.injEq, Prod.mk.injEq] at hc
    obtain ⟨-, rfl, -⟩ := hc
    rw [hh.2.2] at h4
    have hne : h ≠ [] := hr.1
    have hl : (h.map fun s => fin s.logz).getLast? = some (fin (h.getLast hne).logz) := by
      rw [List.getLast?_map, List.getLast?_eq_getLast_of_ne_nil hne]
      rfl
    rw [getAt_neg_one hl] at h4
    simp only [Except.ok.injEq] at h4
    exact ⟨_, h4.symm⟩
  · obtain ⟨⟨_, z⟩, h4, hc⟩ := bind_ok hc
    simp only [pure, Except.pure, Except.ok.injEq, Prod.mk.injEq] at hc
    obtain ⟨-, rfl, -⟩ := hc
    rw [computeLogwLogz_fin past h n hr hh] at h4
    simp only [Except.ok.injEq, Prod.mk.injEq] at h4
    exact ⟨_, h4.2.symm⟩
  · obtain ⟨⟨b2, e2⟩, h5, hc⟩ := bind_ok hc
    obtain ⟨⟨_, z⟩, h4, hc⟩ := bind_ok hc
    simp only [pure, Except.pure, Except.ok.injEq, Prod.mk.injEq] at hc
    obtain ⟨rfl, rfl, -⟩ := hc
    rw [computeLogwLogz_fin past h n hr hh] at h4
    simp only [Except.ok.injEq, Prod.mk.injEq] at h4
    exact ⟨_, h4.2.symm⟩

/-- What `_mutate` does to the particles. -/
theorem mutate_rows {e : SamplerEnv d B Φ} {ll lp : Pt d → F} {bb : Pt d → List B} {hb : Bool} {rnd : Rnd d Φ} {fuel : ℕ}
    (hu : UserFns e ll lp bb hb) {s s' : Sampler d B Φ} {c c' : Cur d B} (hs : s.haveBlobs = hb) (hok : s.scaler.Ok)
    (hr : ∀ t i k, ∃ r : ℝ, (rnd.mcmc t i k).rand = fin r ∧ 0 ≤ r ∧ r < 1)
    {b : ℝ} (hβ : c.it.beta = fin b) (hb0 : 0 ≤ b) {rows : List (Row d (List B))} (hrows : IsRows hb c.it rows)
    (hgood : ∀ r ∈ rows, GoodRow s.scaler ll lp bb hb r) (h : mutate e rnd fuel s c = .ok (s', c')) :
    ∃ rows', rows'.length = rows.length ∧ IsRows hb c'.it rows' ∧ (∀ r ∈ rows', GoodRow s.scaler ll lp bb hb r) ∧
      c'.it.logw = c.it.logw ∧ c'.it.beta = c.it.beta ∧ c'.it.logz = c.it.logz ∧ c'.it.iter = c.it.iter ∧
      ∃ r : McmcResult d (List B), r.calls = r.evaluated.length ∧ c'.it.calls = c.it.calls + r.calls ∧
        (∀ x ∈ r.evaluated, Callable s.scaler lp x) ∧
        s' = { s with calls := c.it.calls + r.calls, proposalScale := r.proposalScale,
                      evals := s.evals ++ r.evaluated } := by
  obtain ⟨ws, k, r, h1, h2, h3, h4⟩ := mutate_ok h
  simp only [writeBack, Prod.mk.injEq] at h4
  obtain ⟨rfl, rfl⟩ := h4
  obtain ⟨kb, ks, kh, -⟩ := kernelEnv_ok h2
  have hrow := kernelEnv_rowwise hu hs h2
  rw [hs, toWalkers_rows hrows] at h1
  simp only [Except.ok.injEq] at h1
  subst h1
  have hun : Uniform (rnd.mcmc s.t) := fun i k => hr s.t i k
  have hbel : ∀ w ∈ r.walkers, Belongs s.scaler ll lp bb hb w := by
    have := C29_mcmc k b (kb.trans hβ) hb0 ll lp bb hrow fuel (rnd.mcmc s.t) hun _ (by
      intro w hw
      obtain ⟨r0, hr0, rfl⟩ := List.mem_map.mp hw
      obtain ⟨⟨g1, g2, g3, g4⟩, -⟩ := hgood r0 hr0
      rw [ks, kh, hs]
      refine ⟨g1, g2, g3, fun hh => ?_⟩
      simp [Row.walker, hh, g4 hh]) r h3
    rw [ks, kh, hs] at this
    exact this
  obtain ⟨l1, l2⟩ := C25_invalid_rejected k b (kb.trans hβ) hb0 fuel (rnd.mcmc s.t) hun _ r h3
  obtain ⟨c1, c2⟩ := C26_likelihood_calls k ll lp bb hrow fuel (rnd.mcmc s.t) _ r h3
  rw [ks] at c1
  refine ⟨r.walkers.map fun w => ⟨w.u, w.x, w.logdetj, w.logl, w.logp, w.blob.getD []⟩, by simpa using l1,
    ⟨?_, ?_, ?_, ?_, ?_, ?_⟩, ?_, rfl, rfl, rfl, rfl, r, c2, rfl, c1, rfl⟩
  · simp
  · simp
  · simp
  · simp
  · simp
  · simp only [hs]
    have hbl := hrows.blobs
    cases hb
    · simpa using hbl
    · simp
  · intro row hrow'
    obtain ⟨w, hw, rfl⟩ := List.mem_map.mp hrow'
    obtain ⟨b1, b2, b3, b4⟩ := hbel w hw
    have hbelongs : Row.Belongs s.scaler ll lp bb hb
        (⟨w.u, w.x, w.logdetj, w.logl, w.logp, w.blob.getD []⟩ : Row d (List B)) :=
      ⟨b1, b2, b3, fun hh => by simp [b4 hh]⟩
    obtain ⟨j, hj, rfl⟩ := List.mem_iff_getElem.mp hw
    rcases l2 j r.walkers[j] (List.getElem?_eq_getElem hj) with ⟨w0, hw0, sp⟩ | adm
    · rw [List.getElem?_map] at hw0
      obtain ⟨r0, hr0, rfl⟩ := Option.map_eq_some_iff.mp hw0
      obtain ⟨-, g2, g3⟩ := hgood r0 (List.mem_of_getElem? hr0)
      refine ⟨hbelongs, ?_, fun hp => ?_⟩
      · obtain ⟨u, hu'⟩ := g2
        exact ⟨u, sp.1.trans hu'⟩
      · obtain ⟨l, hl⟩ := g3 hp
        exact ⟨l, sp.2.2.2.1.trans hl⟩
    · obtain ⟨a1, a2, a3, a4, a5⟩ := adm
      refine ⟨hbelongs, inverseRow_finite hok b1 a1 a2, fun hp => ?_⟩
      rcases hp (r.walkers[j]).x with hq | ⟨l, hq⟩
      · exact absurd (b3.trans hq) a5
      · exact ⟨l, b3.trans hq⟩



theorem getLast_beta {its : List (Iter d B)} {it : Iter d B} {bs : List ℝ} (h : its.getLast? = some it)
    (hb : its.map (·.beta) = bs.map fin) : ∃ b, bs.getLast? = some b ∧ it.beta = fin b := by
  have : (its.map (·.beta)).getLast? = some it.beta := by rw [List.getLast?_map, h]; rfl
  rw [hb, List.getLast?_map] at this
  obtain ⟨b, h1, h2⟩ := Option.map_eq_some_iff.mp this
  exact ⟨b, h1, h2.symm⟩

theorem pairwise_concat {bs : List ℝ} {b : ℝ} (h : bs.Pairwise (· ≤ ·)) (hb : ∀ x ∈ bs, x ≤ b) :
    (bs ++ [b]).Pairwise (· ≤ ·) :=
  List.pairwise_append.mpr ⟨h, by simp, fun x hx y hy => by simp at hy; subst hy; exact hb x hx⟩

theorem le_getLast {bs : List ℝ} {b : ℝ} (h : bs.Pairwise (· ≤ ·)) (hl : bs.getLast? = some b) : ∀ x ∈ bs, x ≤ b := by
  intro x hx
  have hne : bs ≠ [] := List.ne_nil_of_mem hx
  have hb : bs = bs.dropLast ++ [b] := by
    rw [List.getLast?_eq_getLast_of_ne_nil hne] at hl
    simp only [Option.some.injEq] at hl
    rw [← hl, List.dropLast_append_getLast hne]
  rw [hb] at h hx
  rcases List.mem_append.mp hx with hx | hx
  · exact (List.pairwise_append.mp h).2.2 x hx b (by simp)
  · simp at hx; exact hx.le

section
variable {e : SamplerEnv d B Φ} {ll lp : Pt d → F} {bb : Pt d → List B} {hb : Bool} {s s' : Sampler d B Φ} {rnd : Rnd d Φ}
  {its : List (Iter d (List B))}

theorem Inv.init (hc : Configured e) (hd : Draws s.scaler.low s.scaler.high rnd) (h : Inv e ll lp bb hb s its)
    {a : RunArgs} (hm : runInit e rnd a s = .ok s') :
    Inv e ll lp bb hb s' its ∧ s'.scaler.low = s.scaler.low ∧ s'.scaler.high = s.scaler.high := by
  unfold runInit at hm
  cases hps : s.priorSamples with
  | some ps =>
    simp only [hps, Except.ok.injEq] at hm
    subst hm
    exact ⟨⟨h.past, h.rows, h.cur, h.betas, h.logz, h.blobs, h.blobs', h.bounds, h.scale, fun hh => h.noPrior (by simpa [hps] using hh),
      fun ps' hps' => h.prior ps' (by simpa [hps] using hps'), h.geo, h.warm⟩, rfl, rfl⟩
  | none =>
    have hits := h.noPrior hps
    subst hits
    simp only [hps] at hm
    obtain ⟨sc, h1, hm⟩ := bind_ok hm
    simp only [pure, Except.pure, Except.ok.injEq] at hm
    subst hm
    obtain ⟨xs, x1, x2, x3, x4⟩ := hd.prior e.nPrior
    have hpos : 1 < e.nPrior := hc.2.2
    obtain ⟨sc', f1, f2, -⟩ := C41_fit_standardises s.scaler h.bounds h.scale xs x3
      (by rintro rfl; simp at x2; omega) (x4 hpos)
    rw [← x1, h1] at f1
    simp only [Except.ok.injEq] at f1
    subst f1
    have hsc : sc.low = s.scaler.low ∧ sc.high = s.scaler.high ∧ sc.scale = s.scaler.scale := by
      unfold Scaler.fit at h1
      split at h1
      · cases h1
      · simp only [Except.ok.injEq] at h1
        subst h1
        exact ⟨rfl, rfl, rfl⟩
    refine ⟨⟨h.past, by simp, h.cur, h.betas, by simp, by simp, h.blobs', ?_, ?_, by simp, ?_, h.geo, by simp⟩, hsc.1, hsc.2.1⟩
    · simp only [hsc]; exact h.bounds
    · simp only [hsc]; exact h.scale
    · intro ps hps'
      simp only [Option.some.injEq] at hps'
      subst hps'
      refine ⟨f2, xs, x1, x2, ?_⟩
      simp only [hsc]
      exact x3

theorem Inv.warmStep (hu : UserFns e ll lp bb hb) (hc : Configured e) (h : Inv e ll lp bb hb s its) (hw : s.warmup = true)
    {i : ℕ} (hi : i < e.nPrior / e.nActive) (hm : warmupStep e rnd s i = .ok s') :
    ∃ it, Inv e ll lp bb hb s' (its ++ [it]) ∧ s'.scaler = s.scaler := by
  cases hps : s.priorSamples with
  | none =>
    exfalso
    unfold warmupStep warmupBatch at hm
    rw [hps] at hm
    cases hm
  | some ps =>
    obtain ⟨hok, xs, rfl, x2, x3⟩ := h.prior ps hps
    have hlen : (i + 1) * e.nActive ≤ xs.length := by
      rw [x2]
      exact (Nat.le_div_iff_mul_le hc.1).mp hi
    obtain ⟨b, rows, ys, r1, r2, r3, y1, y2, rfl⟩ := warmupStep_ok hu hok h.blobs' hps x3 i hc.1 hlen hm
    refine ⟨_, ⟨update_columns _ its h.past _, ?_, by simp, ?_, ?_, fun _ => rfl, fun h => h, h.bounds, h.scale, by simp, ?_, h.geo, ?_⟩, rfl⟩
    · intro it hit
      rcases List.mem_append.mp hit with hit | hit
      · exact h.rows it hit
      · simp only [List.mem_singleton] at hit
        subst hit
        exact ⟨rows, r1, r2, fun r hr => (r3 r hr).1, by simp [warmupIter]⟩
    · obtain ⟨bs, b1, b2, b3⟩ := h.betas
      refine ⟨bs ++ [0], by simp [b1, warmupIter], ?_, ?_⟩
      · refine pairwise_concat b2 fun x hx => ?_
        have : fin x ∈ its.map (·.beta) := by rw [b1]; exact List.mem_map_of_mem hx
        obtain ⟨it, hit, he⟩ := List.mem_map.mp this
        rw [h.warm hw it hit] at he
        simp only [fin_inj] at he
        exact he.symm.le
      · intro x hx
        rcases List.mem_append.mp hx with hx | hx
        · exact b3 x hx
        · simp at hx; subst hx; norm_num
    · intro hp it hit
      rcases List.mem_append.mp hit with hit | hit
      · exact h.logz hp it hit
      · simp only [List.mem_singleton] at hit
        subst hit
        exact ⟨0, rfl⟩
    · intro ps hps'
      simp only [Option.some.injEq] at hps'
      subst hps'
      exact ⟨hok, ys, rfl, y1.trans x2, fun y hy => x3 y (y2 y hy)⟩
    · intro _ it hit
      rcases List.mem_append.mp hit with hit | hit
      · exact h.warm hw it hit
      · simp only [List.mem_singleton] at hit
        subst hit
        rfl

/-- What one iteration of the main loop does, on a state satisfying the invariant. -/
theorem Inv.smcStep_spec (hu : UserFns e ll lp bb hb) (hc : Configured e) (hd : Draws s.scaler.low s.scaler.high rnd)
    (h : Inv e ll lp bb hb s its) {fuel : ℕ} (hm : smcStep e rnd fuel s = .ok s') :
    ∃ (c c3 : Cur d B) (b β : ℝ) (r : McmcResult d (List B)), s.cur = some c ∧ its.getLast? = some c.it ∧ c.it.beta = fin b ∧
      c3.it.beta = fin β ∧ b ≤ β ∧ β ≤ 1 ∧ 0 ≤ b ∧
      HasRows e.nActive hb (GoodRow s.scaler ll lp bb hb) c3.it ∧ c3.it.iter = c.it.iter ∧ c3.it.logw = c.it.logw ∧
      (ProperLike ll → ∃ z, c3.it.logz = fin z) ∧
      r.calls = r.evaluated.length ∧ c3.it.calls = c.it.calls + r.calls ∧
      (∀ x ∈ r.evaluated, Callable s.scaler lp x) ∧
      s'.calls = c.it.calls + r.calls ∧ s'.evals = s.evals ++ r.evaluated ∧ s'.cur = some c3 ∧
      s'.particles = s.particles.update (Cols.full c3.it) ∧ s'.scaler = s.scaler ∧ s'.haveBlobs = s.haveBlobs ∧
      s'.priorSamples = s.priorSamples ∧ s'.warmup = s.warmup ∧ s'.t = s.t + 1 ∧
      (s.flowUntrained = false → s'.flowUntrained = false) ∧
      (e.preconditioned = true → s'.thetaGeometry.isSome = true) ∧
      (e.preconditioned = false → s'.uGeometry.isSome = true) ∧
      ((s.flowUntrained = false → s.thetaGeometry.isSome = true) → s'.flowUntrained = false → s'.thetaGeometry.isSome = true) := by
  obtain ⟨c, s1, c1, s2, c2, s3, c3, h0, h1, h2, h3, h4, rfl⟩ := smcStep_ok hm
  have hlast : its.getLast? = some c.it := by rw [← h.cur, h0]; rfl
  have hne : its ≠ [] := by rintro rfl; simp at hlast
  have hhb := h.blobs hne
  obtain ⟨bs, b1, b2, b3⟩ := h.betas
  obtain ⟨b, hb1, hb2⟩ := getLast_beta hlast b1
  have hb01 := b3 b (List.mem_of_getLast? hb1)
  obtain ⟨nEff, beta, logz, ess, w, tr, k1, k2, k3, k4, rfl⟩ := reweight_ok h1
  have hpl : s.particles.past.beta.getLast? = some (fin b) := by
    rw [h.past]
    change (its.map (·.beta)).getLast? = _
    rw [b1, List.getLast?_map, hb1]
    rfl
  obtain ⟨β, rfl, q1, q2⟩ := C21_beta_step _ _ _ _ b hb01.2 hpl _ _ _ k1
  have hcb : hb = false → c.it.blobs = none := by
    intro hf
    obtain ⟨rows, -, r2, -⟩ := h.rows c.it (List.mem_of_getLast? hlast)
    rw [r2.blobs, hf]; rfl
  rw [h.past, hhb] at k4
  obtain ⟨⟨rows1, -, g1, g2⟩, -, gl, gi, gc, -, -, -, gb, gz, -⟩ := gatherCur_ok hne h.rows hcb k4
  have hs2 : s2.haveBlobs = hb ∧ s2.scaler = s.scaler ∧ s2.particles = s.particles ∧ s2.priorSamples = s.priorSamples ∧
      s2.warmup = s.warmup ∧ s2.t = s.t + 1 ∧ s2.evals = s.evals ∧ (s.flowUntrained = false → s2.flowUntrained = false) ∧
      ((s.flowUntrained = false → s.thetaGeometry.isSome = true) → s2.flowUntrained = false → s2.thetaGeometry.isSome = true) := by
    rcases train_ok h2 with ⟨-, flow, g, rfl⟩ | ⟨-, g, rfl⟩
    · exact ⟨hhb, rfl, rfl, rfl, rfl, rfl, rfl, fun _ => rfl, fun _ _ => rfl⟩
    · exact ⟨hhb, rfl, rfl, rfl, rfl, rfl, rfl, fun h => h, fun h => h⟩
  obtain ⟨t1, t2, t3, t4, t5, t6, t7, t8, t9⟩ := hs2
  obtain ⟨⟨rows2, p1, p2, p3⟩, -, pl, pi, pc, -, -, -, pb, pz, -⟩ := resampleStep_ok t1 g1 g2 h3
  have hok : s.scaler.Ok := by
    cases hps : s.priorSamples with
    | none => exact absurd (h.noPrior hps) hne
    | some ps => exact (h.prior ps hps).1
  have hmg : ∃ g, (if e.preconditioned then s2.thetaGeometry else s2.uGeometry) = some g := by
    obtain ⟨ws, k, r, -, hk, -⟩ := mutate_ok h4
    obtain ⟨-, -, -, -, -, -, -, -, -, -, -, g, hg, -⟩ := kernelEnv_ok hk
    exact ⟨g, hg⟩
  obtain ⟨rows3, m1, m2, m3, ml, mb, mz, mi, r, r1, r2, r3, rfl⟩ := mutate_rows hu t1 (t2 ▸ hok) hd.mcmc (pb.trans gb)
    (le_trans hb01.1 q1) p2 (t2 ▸ p3) h4
  rw [t2] at m3 r3
  have hlogw : List.length c.it.logw = e.nActive := by
    obtain ⟨rows, -, -, -, hl⟩ := h.rows c.it (List.mem_of_getLast? hlast)
    exact hl
  refine ⟨c, c3, b, β, r, h0, hlast, hb2, (mb.trans pb).trans gb, q1, q2, hb01.1, ⟨rows3, m1.trans p1, m2, m3, ?_⟩,
    (mi.trans pi).trans gi, (ml.trans pl).trans gl, ?_, r1, ?_, r3, ?_, ?_, rfl, by simp only [t3], t2, t1.trans hhb.symm, t4, t5, t6, t8, ?_, ?_, t9⟩
  · rw [ml, pl, gl]; exact hlogw
  · intro hp
    obtain ⟨h', hh1, hh2, -, -⟩ := holds_of hc.1 hne h.rows (fun r hr => hr.2.2 hp) b1 (h.logz hp)
    rw [← h.past] at hh1
    obtain ⟨z, hz⟩ := chooseBeta_logz hh2 hh1 b hb01.2 hpl k1
    exact ⟨z, by rw [mz, pz, gz, hz]⟩
  · rw [r2, pc, gc]
  · simp only [pc, gc]
  · simp only [t7]
  · intro hp
    obtain ⟨g, hg⟩ := hmg
    rw [hp] at hg
    simp only [if_true] at hg
    simp [hg]
  · intro hp
    obtain ⟨g, hg⟩ := hmg
    rw [hp] at hg
    simp only [Bool.false_eq_true, if_false] at hg
    simp [hg]

theorem Inv.smc (hu : UserFns e ll lp bb hb) (hc : Configured e) (hd : Draws s.scaler.low s.scaler.high rnd)
    (hw : s.warmup = false) (h : Inv e ll lp bb hb s its) {fuel : ℕ} (hm : smcStep e rnd fuel s = .ok s') :
    ∃ it, Inv e ll lp bb hb s' (its ++ [it]) ∧ s'.scaler = s.scaler := by
  obtain ⟨c, c3, b, β, r, h0, h1, h2, h3, h4, h5, h5', h6, -, -, h7, -, -, -, -, -, h8, h9, h10, h11, h12, h13, -, -, -, -, h14⟩ :=
    h.smcStep_spec hu hc hd hm
  have hne : its ≠ [] := by rintro rfl; simp at h1
  refine ⟨c3.it, ⟨by rw [h9]; exact update_columns _ its h.past _, ?_, by simp [h8], ?_, ?_, fun _ => h11.trans (h.blobs hne),
    fun hh => h.blobs' (h11 ▸ hh), by rw [h10]; exact h.bounds, by rw [h10]; exact h.scale, ?_, ?_, h14 h.geo, ?_⟩, h10⟩
  · intro it hit
    rw [h10]
    rcases List.mem_append.mp hit with hit | hit
    · exact h.rows it hit
    · simp only [List.mem_singleton] at hit
      subst hit
      exact h6
  · obtain ⟨bs, b1, b2, b3⟩ := h.betas
    obtain ⟨b', hb1, hb2⟩ := getLast_beta h1 b1
    rw [h2] at hb2
    simp only [fin_inj] at hb2
    subst hb2
    refine ⟨bs ++ [β], by simp [b1, h3], pairwise_concat b2 fun x hx => (le_getLast b2 hb1 x hx).trans h4, ?_⟩
    intro x hx
    rcases List.mem_append.mp hx with hx | hx
    · exact b3 x hx
    · simp at hx; subst hx; exact ⟨h5'.trans h4, h5⟩
  · intro hp it hit
    rcases List.mem_append.mp hit with hit | hit
    · exact h.logz hp it hit
    · simp only [List.mem_singleton] at hit
      subst hit
      exact h7 hp
  · intro hh
    rw [h12] at hh
    exact absurd (h.noPrior hh) hne
  · intro ps hps
    rw [h12] at hps
    rw [h10]
    exact h.prior ps hps
  · intro hh
    rw [h13, hw] at hh
    cases hh

theorem finalEvidence_ok (hm : finalEvidence e rnd s = .ok s') :
    (s.nEvidence > 0 ∧ e.preconditioned = true ∧ computeEvidence e rnd s.nEvidence s = .ok s') ∨
    (¬ (s.nEvidence > 0 ∧ e.preconditioned = true) ∧ ∃ lw z, computeLogwLogz s.particles.past (fin 1) = .ok (lw, z) ∧
      s' = { s with logz := some z, logzErr := none }) := by
  unfold finalEvidence at hm
  split_ifs at hm with hif
  · exact .inl ⟨hif.1, hif.2, hm⟩
  · obtain ⟨⟨lw, z⟩, h1, hm⟩ := bind_ok hm
    simp only [pure, Except.pure, Except.ok.injEq] at hm
    exact .inr ⟨hif, lw, z, h1, hm.symm⟩

/-- `_compute_evidence`, what it does. -/
theorem computeEvidence_ok {n : ℕ} (hm : computeEvidence e rnd n s = .ok s') :
    ∃ inv ll bl hbl, s.scaler.inverse ((rnd.flowSample s.t s.flow n).map (·.1)) = .ok inv ∧
      logLike e.like (keepFinite (e.logPrior (inv.map (·.1))) (inv.map (·.1))) = .ok (ll, bl, hbl) ∧
      s' = { s with
        calls := s.calls + (evidenceOf ll (keepFinite (e.logPrior (inv.map (·.1))) (e.logPrior (inv.map (·.1))))
            (keepFinite (e.logPrior (inv.map (·.1))) (inv.map (·.2)))
            (keepFinite (e.logPrior (inv.map (·.1))) ((rnd.flowSample s.t s.flow n).map (·.2)))).1.length
        logz := some (evidenceOf ll (keepFinite (e.logPrior (inv.map (·.1))) (e.logPrior (inv.map (·.1))))
            (keepFinite (e.logPrior (inv.map (·.1))) (inv.map (·.2)))
            (keepFinite (e.logPrior (inv.map (·.1))) ((rnd.flowSample s.t s.flow n).map (·.2)))).2
        logzErr := some (bootstrapErr (evidenceOf ll (keepFinite (e.logPrior (inv.map (·.1))) (e.logPrior (inv.map (·.1))))
            (keepFinite (e.logPrior (inv.map (·.1))) (inv.map (·.2)))
            (keepFinite (e.logPrior (inv.map (·.1))) ((rnd.flowSample s.t s.flow n).map (·.2)))).1 n (rnd.boot s.t))
        haveBlobs := s.haveBlobs || hbl
        evals := s.evals ++ keepFinite (e.logPrior (inv.map (·.1))) (inv.map (·.1)) } := by
  unfold computeEvidence at hm
  obtain ⟨inv, h1, hm⟩ := bind_ok hm
  obtain ⟨⟨ll, bl, hbl⟩, h2, hm⟩ := bind_ok hm
  simp only [pure, Except.pure, Except.ok.injEq] at hm
  exact ⟨inv, ll, bl, hbl, h1, h2, hm.symm⟩

theorem Inv.evid (hu : UserFns e ll lp bb hb) (hw : s.warmup = false) (h : Inv e ll lp bb hb s its)
    (hm : finalEvidence e rnd s = .ok s') : Inv e ll lp bb hb s' its ∧ s'.scaler = s.scaler := by
  rcases finalEvidence_ok hm with ⟨-, -, hm⟩ | ⟨-, lw, z, -, rfl⟩
  · obtain ⟨inv, ll', bl, hbl, h1, h2, rfl⟩ := computeEvidence_ok hm
    have hbl' : hbl = true → hb = true := by
      intro hh
      by_cases hx : keepFinite (e.logPrior (inv.map (·.1))) (inv.map (·.1)) = []
      · rw [hx, hu.nothing] at h2
        simp only [Except.ok.injEq, Prod.mk.injEq] at h2
        rw [← h2.2.2] at hh; cases hh
      · rw [hu.like _ hx] at h2
        simp only [Except.ok.injEq, Prod.mk.injEq] at h2
        rw [h2.2.2]; exact hh
    refine ⟨⟨h.past, h.rows, h.cur, h.betas, h.logz, ?_, ?_, h.bounds, h.scale, h.noPrior, h.prior, h.geo, fun hh => by
      rw [hw] at hh; cases hh⟩, rfl⟩
    · intro hne
      simp only [h.blobs hne]
      cases hb <;> cases hbl <;> simp_all
    · intro hh
      simp only [Bool.or_eq_true] at hh
      rcases hh with hh | hh
      · exact h.blobs' hh
      · exact hbl' hh
  · exact ⟨⟨h.past, h.rows, h.cur, h.betas, h.logz, h.blobs, h.blobs', h.bounds, h.scale, h.noPrior, h.prior, h.geo, h.warm⟩, rfl⟩

theorem Inv.move (hu : UserFns e ll lp bb hb) (hc : Configured e) (hd : Draws s.scaler.low s.scaler.high rnd)
    (h : Inv e ll lp bb hb s its) (hm : Move e rnd s s') :
    ∃ more, Inv e ll lp bb hb s' (its ++ more) ∧ s'.scaler.low = s.scaler.low ∧ s'.scaler.high = s.scaler.high := by
  cases hm with
  | init a hm =>
    obtain ⟨k1, k2, k3⟩ := h.init hc hd hm
    exact ⟨[], by simpa using k1, k2, k3⟩
  | warm i hw hi hm =>
    obtain ⟨it, k1, k2⟩ := h.warmStep hu hc hw hi hm
    exact ⟨[it], k1, by rw [k2], by rw [k2]⟩
  | endWarm hw =>
    refine ⟨[], ?_, rfl, rfl⟩
    rw [List.append_nil]
    exact ⟨h.past, h.rows, h.cur, h.betas, h.logz, h.blobs, h.blobs', h.bounds, h.scale, h.noPrior, h.prior, h.geo,
      fun hh => by cases hh⟩
  | smc fuel hw hm =>
    obtain ⟨it, k1, k2⟩ := h.smc hu hc hd hw hm
    exact ⟨[it], k1, by rw [k2], by rw [k2]⟩
  | evidence hw hm =>
    obtain ⟨k1, k2⟩ := h.evid hu hw hm
    exact ⟨[], by simpa using k1, by rw [k2], by rw [k2]⟩

theorem Inv.moves (hu : UserFns e ll lp bb hb) (hc : Configured e) (hd : Draws s.scaler.low s.scaler.high rnd)
    (h : Inv e ll lp bb hb s its) (hm : Moves e rnd s s') :
    ∃ more, Inv e ll lp bb hb s' (its ++ more) ∧ s'.scaler.low = s.scaler.low ∧ s'.scaler.high = s.scaler.high := by
  induction hm with
  | refl => exact ⟨[], by simpa using h, rfl, rfl⟩
  | tail _ hm ih =>
    obtain ⟨m1, k1, k2, k3⟩ := ih
    obtain ⟨m2, l1, l2, l3⟩ := k1.move hu hc (by rw [k2, k3]; exact hd) hm
    exact ⟨m1 ++ m2, by rw [← List.append_assoc]; exact l1, l2.trans k2, l3.trans k3⟩

theorem Inv.fresh (h : Fresh e hb s) : Inv e ll lp bb hb s [] := by
  refine ⟨by rw [h.particles]; rfl, by simp, by rw [h.cur]; rfl, ⟨[], rfl, List.Pairwise.nil, by simp⟩, by simp, by simp, h.blobs, h.bounds,
    h.scale, fun _ => rfl, ?_, ?_, by simp⟩
  · intro ps hps; rw [h.priorSamples] at hps; cases hps
  · intro hh; rw [h.untrained] at hh; cases hh

/-- Every state of every session satisfies the invariant. -/
theorem Spec.Session.inv (hu : UserFns e ll lp bb hb) (hc : Configured e) (h : Session e hb s) :
    ∃ its, Inv e ll lp bb hb s its := by
  induction h with
  | fresh h => exact ⟨[], .fresh h⟩
  | ran rnd fuel n a _ hd hr ih =>
    obtain ⟨its, hi⟩ := ih
    obtain ⟨more, k, -⟩ := hi.moves hu hc hd ((Along.run fuel n a _).to_end _ hr).1
    exact ⟨_, k⟩
  | loaded rnd fuel n a sv _ hd hr ih =>
    obtain ⟨its, hi⟩ := ih
    obtain ⟨more, k, -⟩ := hi.moves hu hc hd ((Along.run fuel n a _).from_start sv hr)
    exact ⟨_, k⟩

end

/-! ### loop invariants -/

section
variable {e : SamplerEnv d B Φ} {rnd : Rnd d Φ}

/-- A predicate holds at every state file and at the end of a piece of a run. -/
def TraceP (P : Sampler d B Φ → Prop) (t : Trace d B Φ) : Prop := (∀ sv ∈ t.1, P sv.state) ∧ ∀ s', t.2 = .ok s' → P s'

theorem TraceP.andThen {P : Sampler d B Φ → Prop} {t : Trace d B Φ} {f : Sampler d B Φ → Trace d B Φ} (h : TraceP P t)
    (k : ∀ s, t.2 = .ok s → P s → TraceP P (f s)) : TraceP P (t.andThen f) := by
  obtain ⟨l, r⟩ := t
  cases r with
  | error x => exact ⟨h.1, fun s' hs' => by cases hs'⟩
  | ok s1 =>
    have k1 := k s1 rfl (h.2 s1 rfl)
    refine ⟨fun sv hsv => ?_, k1.2⟩
    rcases List.mem_append.mp hsv with hsv | hsv
    · exact h.1 sv hsv
    · exact k1.1 sv hsv

theorem TraceP.save {P : Sampler d B Φ → Prop} {k : Option ℕ} {t0 : ℕ} {s : Sampler d B Φ} (h : P s) :
    TraceP P (Trace.save k t0 s) :=
  ⟨fun sv hsv => by rw [save_mem hsv]; exact h, fun s' hs' => by rw [save_ok hs']; exact h⟩

theorem TraceP.warmupLoop {P : Sampler d B Φ → Prop} {N : ℕ}
    (hP : ∀ s s' i, i < N → P s → warmupStep e rnd s i = .ok s' → P s')
    (k : Option ℕ) (t0 : ℕ) (n : ℕ) : ∀ (i : ℕ) (s : Sampler d B Φ), i + n ≤ N → P s →
    TraceP P (Poco.warmupLoop e rnd k t0 n i s) := by
  induction n with
  | zero =>
    intro i s hN hs
    refine ⟨by simp [Poco.warmupLoop], fun s' hs' => ?_⟩
    simp only [Poco.warmupLoop, Except.ok.injEq] at hs'
    rw [← hs']; exact hs
  | succ n ih =>
    intro i s hN hs
    refine (TraceP.save hs).andThen fun s1 h1 p1 => ?_
    refine TraceP.andThen ⟨by simp [Trace.lift], fun s2 h2 => hP s1 s2 i (by omega) p1 h2⟩ fun s2 h2 p2 => ?_
    exact ih (i + 1) s2 (by omega) p2

theorem TraceP.runWarmup {P : Sampler d B Φ → Prop}
    (hP : ∀ s s' i, i < e.nPrior / e.nActive → P s → warmupStep e rnd s i = .ok s' → P s')
    (hE : ∀ s, P s → P { s with warmup := false }) (a : RunArgs) (t0 : ℕ) (s : Sampler d B Φ) (hs : P s) :
    TraceP P (Poco.runWarmup e rnd a t0 s) := by
  unfold Poco.runWarmup
  split_ifs with hw hz
  · exact ⟨by simp, fun s' hs' => by cases hs'⟩
  · refine (TraceP.warmupLoop hP a.saveEvery t0 _ 0 s (by omega) hs).andThen fun s1 _ p1 => ⟨by simp, fun s' hs' => ?_⟩
    simp only [Except.ok.injEq] at hs'
    rw [← hs']; exact hE s1 p1
  · exact ⟨by simp, fun s' hs' => by simp only [Except.ok.injEq] at hs'; rw [← hs']; exact hs⟩

theorem TraceP.smcLoop {P : Sampler d B Φ → Prop} {fuel : ℕ} (hP : ∀ s s', P s → smcStep e rnd fuel s = .ok s' → P s')
    (k : Option ℕ) (t0 : ℕ) (n : ℕ) : ∀ s : Sampler d B Φ, P s → TraceP P (Poco.smcLoop e rnd fuel k t0 n s) := by
  induction n with
  | zero =>
    intro s hs
    unfold Poco.smcLoop
    split
    · exact ⟨by simp, fun s' hs' => by cases hs'⟩
    · exact ⟨by simp, fun s' hs' => by simp only [Except.ok.injEq] at hs'; rw [← hs']; exact hs⟩
    · exact ⟨by simp, fun s' hs' => by cases hs'⟩
  | succ n ih =>
    intro s hs
    unfold Poco.smcLoop
    split
    · exact ⟨by simp, fun s' hs' => by cases hs'⟩
    · exact ⟨by simp, fun s' hs' => by simp only [Except.ok.injEq] at hs'; rw [← hs']; exact hs⟩
    · refine (TraceP.save hs).andThen fun s1 h1 p1 => ?_
      refine TraceP.andThen ⟨by simp [Trace.lift], fun s2 h2 => hP s1 s2 p1 h2⟩ fun s2 h2 p2 => ?_
      exact ih s2 p2

/-- What `run` does before the loops. -/
theorem runInit_ok {a : RunArgs} {s s' : Sampler d B Φ} (h : runInit e rnd a s = .ok s') :
    ((∃ ps, s.priorSamples = some ps) ∧ s' = { s with nTotal := a.nTotal, nEvidence := a.nEvidence }) ∨
    (s.priorSamples = none ∧ ∃ sc, s.scaler.fit (rnd.prior e.nPrior) = .ok sc ∧
      s' = { s with nTotal := a.nTotal, nEvidence := a.nEvidence, priorSamples := some (rnd.prior e.nPrior), scaler := sc }) := by
  unfold runInit at h
  cases hp : s.priorSamples with
  | some ps =>
    simp only [hp, Except.ok.injEq] at h
    exact .inl ⟨⟨ps, rfl⟩, by rw [← h]⟩
  | none =>
    simp only [hp] at h
    obtain ⟨sc, h1, h⟩ := bind_ok h
    simp only [pure, Except.pure, Except.ok.injEq] at h
    exact .inr ⟨rfl, sc, h1, h.symm⟩

/-- A warm-up iteration, what it changes. -/
theorem warmupStep_shape {s s' : Sampler d B Φ} {i : ℕ} (h : warmupStep e rnd s i = .ok s') :
    ∃ b0 hb b, warmupBatch e s i = .ok (b0, hb) ∧ replaceInf b0 hb (rnd.warm s.t) = .ok b ∧
      s' = { s with priorSamples := s.priorSamples.map fun ps => writeSlice ps (i * e.nActive) b.x
                    haveBlobs := hb
                    calls := s.calls + e.nActive
                    cur := some { it := warmupIter b e.nActive s.t (s.calls + e.nActive) s.nEffective, weights := none }
                    particles := s.particles.update (Cols.full (warmupIter b e.nActive s.t (s.calls + e.nActive) s.nEffective))
                    t := s.t + 1
                    evals := s.evals ++ b0.x } := by
  unfold warmupStep at h
  obtain ⟨⟨b0, hb⟩, h1, h⟩ := bind_ok h
  obtain ⟨b, h2, h⟩ := bind_ok h
  simp only [pure, Except.pure, Except.ok.injEq] at h
  exact ⟨b0, hb, b, h1, h2, h.symm⟩

/-- An iteration of the main loop, what it changes. -/
theorem smcStep_shape {fuel : ℕ} {s s' : Sampler d B Φ} (h : smcStep e rnd fuel s = .ok s') :
    ∃ (c c3 : Cur d B) (r : McmcResult d (List B)) (nEff : ℕ) (fl : Φ) (fu : Bool) (ug tg : Option (Geo d)), s.cur = some c ∧
      c3.it.iter = c.it.iter ∧ c3.it.logw = c.it.logw ∧ c3.it.calls = c.it.calls + r.calls ∧
      s' = { s with t := s.t + 1, nEffective := nEff, flow := fl, flowUntrained := fu, uGeometry := ug, thetaGeometry := tg
                    calls := c.it.calls + r.calls, proposalScale := r.proposalScale, evals := s.evals ++ r.evaluated
                    cur := some c3, particles := s.particles.update (Cols.full c3.it) } := by
  obtain ⟨c, s1, c1, s2, c2, s3, c3, h0, h1, h2, h3, h4, rfl⟩ := smcStep_ok h
  obtain ⟨nEff, beta, logz, ess, w, tr, -, -, -, g, rfl⟩ := reweight_ok h1
  obtain ⟨ws, k, r, -, -, -, h5⟩ := mutate_ok h4
  simp only [writeBack, Prod.mk.injEq] at h5
  obtain ⟨rfl, h5⟩ := h5
  have hg : c1.it.iter = c.it.iter ∧ c1.it.logw = c.it.logw ∧ c1.it.calls = c.it.calls := by
    unfold gatherCur at g
    obtain ⟨_, -, g⟩ := bind_ok g
    obtain ⟨_, -, g⟩ := bind_ok g
    obtain ⟨_, -, g⟩ := bind_ok g
    obtain ⟨_, -, g⟩ := bind_ok g
    obtain ⟨_, -, g⟩ := bind_ok g
    obtain ⟨_, -, g⟩ := bind_ok g
    obtain ⟨_, -, g⟩ := bind_ok g
    obtain ⟨_, -, g⟩ := bind_ok g
    obtain ⟨_, -, g⟩ := bind_ok g
    obtain ⟨_, -, g⟩ := bind_ok g
    split_ifs at g
    all_goals
      obtain ⟨_, -, g⟩ := bind_ok g
      simp only [pure, Except.pure, Except.ok.injEq] at g
      rw [← g]
      exact ⟨rfl, rfl, rfl⟩
  have hr : c2.it.iter = c1.it.iter ∧ c2.it.logw = c1.it.logw ∧ c2.it.calls = c1.it.calls := by
    unfold resampleStep at h3
    obtain ⟨_, -, h3⟩ := bind_ok h3
    obtain ⟨_, -, h3⟩ := bind_ok h3
    obtain ⟨_, -, h3⟩ := bind_ok h3
    obtain ⟨_, -, h3⟩ := bind_ok h3
    obtain ⟨_, -, h3⟩ := bind_ok h3
    obtain ⟨_, -, h3⟩ := bind_ok h3
    obtain ⟨_, -, h3⟩ := bind_ok h3
    obtain ⟨_, -, h3⟩ := bind_ok h3
    simp only [pure, Except.pure, Except.ok.injEq] at h3
    rw [← h3]
    exact ⟨rfl, rfl, rfl⟩
  have h6 : c3.it.iter = c.it.iter ∧ c3.it.logw = c.it.logw ∧ c3.it.calls = c.it.calls + r.calls := by
    rw [h5]
    exact ⟨hr.1.trans hg.1, hr.2.1.trans hg.2.1, by simp only [hr.2.2, hg.2.2]⟩
  have h7 : c2.it.calls = c.it.calls := hr.2.2.trans hg.2.2
  clear h5
  rcases train_ok h2 with ⟨-, flow, g, rfl⟩ | ⟨-, g, rfl⟩
  · exact ⟨c, c3, r, nEff, flow, false, s.uGeometry, some g, h0, h6.1, h6.2.1, h6.2.2, by simp only [h7]⟩
  · exact ⟨c, c3, r, nEff, s.flow, s.flowUntrained, some g, s.thetaGeometry, h0, h6.1, h6.2.1, h6.2.2, by simp only [h7]⟩
end

end Poco
