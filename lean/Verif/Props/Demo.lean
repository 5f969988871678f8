import Verif.Lemmas.Flat
import Verif.Props.LogLike

/-! A concrete sampler, small but complete: two parameters, two active particles, four prior samples, a likelihood that
returns a blob.  It shows that the hypotheses of the theorems about runs and sessions can be met, and it turns the
statements of the form "if a run …, the counter is wrong" into plain refutations (C27, C55, C58). -/

namespace Poco.Demo
open F Spec

/-- Likelihood 1 everywhere, with one blob per point. -/
def like : LikeEnv 2 Unit where
  single := fun _ => .ok (.seq false (fin 0) [()])
  vector := fun xs => .ok (xs.map fun _ => fin 0)
  vectorize := false
  pool := none

/-- The settings; `p` chooses preconditioning (with the identity as flow). -/
def env (p : Bool) : SamplerEnv 2 Unit Unit where
  like := like
  logPrior := fun xs => xs.map fun _ => fin 0
  nActive := 2
  nSteps := 1
  nMaxSteps := 10
  nPrior := 4
  trainFrequency := 1
  preconditioned := p
  dynamic := false
  dynamicRatio := fin 0.5
  metric := .ess
  sample := .tpcn
  resample := .mult
  flowFwd := fun _ u => (u, fin 0)
  flowInv := fun _ u => (u, fin 0)
  inv := fun m => .ok m
  chol := fun m => .ok m

/-- The geometry every fit returns. -/
def geo : Geo 2 where
  normalMean := fun _ => fin 0
  normalCov := fun i j => if i = j then fin 1 else fin 0
  tMean := fun _ => fin 0
  tCov := fun i j => if i = j then fin 1 else fin 0
  tNu := fin 1

/-- The draws: prior samples 0, 1, 2, 3 in both coordinates, all uniform numbers 0. -/
noncomputable def rnd : Rnd 2 Unit where
  prior := fun n => (List.range n).map fun (k : ℕ) => pt fun _ => (k : ℝ)
  warm := fun _ _ => 0
  mult := fun _ _ => 0
  syst := fun _ => 0
  mcmc := fun _ _ _ => ⟨fin 1, fun _ => fin 0.1, fin 0⟩
  flowFit := fun _ _ _ _ => .ok ()
  geoFit := fun _ _ _ => .ok geo
  flowSample := fun _ _ n => List.replicate n (pt fun _ => 0, fin 0)
  boot := fun _ _ _ => 0

/-- The new sampler: no bounds. -/
def start : Sampler 2 Unit Unit where
  priorSamples := none
  scaler := Scaler.init 2 (some (fun _ => ninf, fun _ => pinf)) none none .logit
  particles := Particles.init
  cur := none
  t := 0
  warmup := true
  calls := 0
  proposalScale := fin 1
  nEffective := 1
  flow := ()
  flowUntrained := true
  uGeometry := none
  thetaGeometry := none
  haveBlobs := false
  logz := none
  logzErr := none
  nTotal := 0
  nEvidence := 0
  evals := []

theorem fresh (p : Bool) : Fresh (env p) true start := by
  constructor <;> try rfl
  · intro i; exact ⟨by simp [start, Scaler.init], by simp [start, Scaler.init], by simp [start, Scaler.init]⟩
  · intro _; rfl

theorem user (p : Bool) : UserFns (env p) (fun _ => fin 0) (fun _ => fin 0) (fun _ => [()]) true := by
  refine ⟨fun xs => rfl, fun xs hxs => ?_, rfl⟩
  exact C52_blobs_aligned_partial like rfl rfl (fun _ => fin 0) (fun _ => [()]) false xs hxs (by simp [like])

theorem configured (p : Bool) : Configured (env p) := ⟨by simp [env], by simp [env], by simp [env]⟩

theorem draws : Draws start.scaler.low start.scaler.high rnd := by
  refine ⟨fun n => ⟨(List.range n).map fun (k : ℕ) _ => (k : ℝ), by simp [rnd], by simp, ?_, fun hn i => ?_⟩, fun t i k => ⟨0, rfl, le_rfl, one_pos⟩⟩
  · intro x _ i
    simp [start, Scaler.init]
  · exact ⟨fun _ => ((0 : ℕ) : ℝ), List.mem_map.mpr ⟨0, List.mem_range.mpr (by omega), rfl⟩, fun _ => ((1 : ℕ) : ℝ),
      List.mem_map.mpr ⟨1, List.mem_range.mpr (by omega), rfl⟩, by simp⟩

theorem reliable (p : Bool) : Reliable (env p) rnd where
  geo := fun _ _ _ => ⟨_, rfl⟩
  flow := fun _ _ _ _ => ⟨_, rfl⟩
  inv := fun m => ⟨m, rfl⟩
  chol := fun m => ⟨m, rfl⟩
  dim := by simp [env]
  freq := by simp [env]
  ratio := ⟨_, rfl⟩
  mult := fun _ _ => ⟨le_rfl, one_pos⟩
  syst := fun _ => ⟨le_rfl, one_pos⟩

theorem flat (p : Bool) : FlatEnv (env p) (fun _ => fin 0) := ⟨fun _ => .inl rfl, rfl, rfl⟩

/-- A first run, saving after every iteration. -/
def args (nEvidence : ℕ) : RunArgs := ⟨6, nEvidence, some 1⟩

/-- The first run returns. -/
theorem first_run (p : Bool) (m : ℕ) : ∃ s' its, (run (env p) rnd 0 1 (args m) start).2 = .ok s' ∧
    Inv (env p) (fun _ => fin 0) (fun _ => fin 0) (fun _ => [()]) true s' its ∧ (∀ it ∈ its, it.logz = fin 0) ∧ its.length = 3 ∧
    s'.warmup = false ∧ s'.nEffective = 1 ∧ (∀ it, its.getLast? = some it → it.beta = fin 1) ∧
    s'.scaler.low = start.scaler.low ∧ s'.scaler.high = start.scaler.high := by
  obtain ⟨s', its, h1, h2, h3, h4, h5, h6, h⟩ := flat_first_run (flat p) (user p) (configured p) draws (reliable p) (fresh p) (fun _ _ => rfl)
    (by simp [env, start]) (args m) (by simp [args]) (by simp [args, env]) 0 0
  exact ⟨s', its, h1, h2, h3, by simpa [env] using h4, h5, by simpa [start] using h6, h⟩

/-- So there are sessions with a history; one of them is this. -/
theorem session (p : Bool) (m : ℕ) : ∃ s', (run (env p) rnd 0 1 (args m) start).2 = .ok s' ∧ Session (env p) true s' ∧
    s'.particles.past.x.length = 3 := by
  obtain ⟨s', its, h1, h2, -, h3, -⟩ := first_run p m
  refine ⟨s', h1, .ran rnd 0 1 (args m) (.fresh (fresh p)) draws h1, ?_⟩
  rw [h2.past]
  simp [columns, h3]

/-- A second run that asks for more samples returns too, after one more iteration. -/
theorem second_run (p : Bool) (m : ℕ) (s' : Sampler 2 Unit Unit) (h : (run (env p) rnd 0 1 (args m) start).2 = .ok s') :
    Draws s'.scaler.low s'.scaler.high rnd ∧ ∃ s'', (run (env p) rnd 0 1 ⟨8, m, some 1⟩ s').2 = .ok s'' ∧ s''.t = s'.t + 1 := by
  obtain ⟨s1, its, h1, h2, h3, h4, h5, h6, h7, h8, h9⟩ := first_run p m
  rw [h] at h1
  simp only [Except.ok.injEq] at h1
  subst h1
  have hd : Draws s'.scaler.low s'.scaler.high rnd := by rw [h8, h9]; exact draws
  refine ⟨hd, flat_next_run (flat p) (user p) (configured p) hd (reliable p) h2 (by rintro rfl; simp at h4) h3 h5 h7 ?_ _ ?_ ?_ ?_ 0 0⟩
  · rw [h6, h4]; simp [env]
  · simp
  · rw [h4]; simp [env]
  · rw [h4]; simp [env]

/-! ### C27, C58, C55 refuted -/

/-- **C27 is false as stated.** A session (two runs, three importance-sampling draws each) after which the call counter
differs from the number of likelihood evaluations. -/
theorem C27_not_always : ∃ s, Session (env true) true s ∧ s.calls ≠ s.evals.length := by
  obtain ⟨s1, -, hr1, -⟩ := first_run true 3
  obtain ⟨hd, s2, r2, ht⟩ := second_run true 3 s1 hr1
  have hs1 : Session (env true) true s1 := .ran rnd 0 1 (args 3) (.fresh (fresh true)) draws hr1
  refine ⟨s2, .ran rnd 0 1 ⟨8, 3, some 1⟩ hs1 hd r2, ?_⟩
  -- the three draws of the first evidence are missing
  have hm : Missing 0 start := by unfold Missing; rfl
  obtain ⟨m, -, hm1, -, -, s3, hm3, hfe, hne⟩ := run_counts (user true) (configured true) (.fresh (fresh true)) draws hr1 hm fun _ => ⟨rfl, rfl⟩
  have hpos : 0 < m := by
    rcases finalEvidence_ok hfe with ⟨-, -, h⟩ | ⟨h, -⟩
    · obtain ⟨inv, ll', bl, hbl, q1, q2, rfl⟩ := computeEvidence_ok h
      unfold Missing at hm1 hm3
      simp only [List.length_append] at hm1
      have hl : inv.length = 3 := by
        unfold Scaler.inverse at q1
        have := (mapM_eq_ok q1).1
        rw [hne] at this
        simpa [rnd, args] using this
      have hk : (keepFinite ((env true).logPrior (inv.map (·.1))) (inv.map (·.1))).length = 3 := by
        unfold keepFinite
        rw [maskSelect_length _ _ (by simp [env])]
        simp [env, hl, F.isfinite, List.count_replicate]
      omega
    · exact absurd ⟨by rw [hne]; simp [args], rfl⟩ h
  have := C27_later_run_undercounts (user true) (configured true) (fresh true) draws 0 1 (args 3) hr1 rnd hd 0 1 ⟨8, 3, some 1⟩ r2 (by omega) m
    (by simpa using hm1)
  omega

/-- **C58 is false as stated.** The run of the example records an iteration number twice. -/
theorem C58_not_always : ∃ s, Session (env true) true s ∧ ¬ s.particles.past.iter.Nodup := by
  obtain ⟨s1, hr, hs, -⟩ := session true 0
  refine ⟨s1, hs, fun hnd => ?_⟩
  obtain ⟨i, j, v, hij, h1, h2⟩ := C58_iter_repeats (env true) rnd 0 1 (args 0) start s1 true (fresh true) (by simp [env]) hr
  obtain ⟨hi, e1⟩ := List.getElem?_eq_some_iff.mp h1
  obtain ⟨hj, e2⟩ := List.getElem?_eq_some_iff.mp h2
  have := (List.Nodup.getElem_inj_iff hnd).mp (e1.trans e2.symm)
  omega

/-- A file written by a run that starts with the warm-up was written in the warm-up, or after all its batches. -/
theorem warm_saves {d : ℕ} {B Φ : Type} {e : SamplerEnv d B Φ} {rnd : Rnd d Φ} {fuel n : ℕ} {a : RunArgs} {s : Sampler d B Φ} (hw : s.warmup = true) :
    ∀ sv ∈ (run e rnd fuel n a s).1, sv.state.warmup = true ∨ s.t + e.nPrior / e.nActive ≤ sv.state.t := by
  let P : Sampler d B Φ → Prop := fun q => q.warmup = true ∨ s.t + e.nPrior / e.nActive ≤ q.t
  have hP : TraceP P (run e rnd fuel n a s) := by
    unfold run
    dsimp only
    refine TraceP.andThen (P := P) ⟨by simp [Trace.lift], fun s1 h1 => .inl ?_⟩ fun s1 h1 _ => ?_
    · exact (runInit_t h1).2.1.trans hw
    obtain ⟨i1, i2, -⟩ := runInit_t h1
    refine TraceP.andThen (P := P) ?_ fun s2 h2 p2 => TraceP.andThen (P := P) ?_ fun s3 h3 p3 =>
      TraceP.andThen (P := P) ⟨by simp [Trace.lift], fun s4 h4 => ?_⟩ fun s4 h4 p4 => ?_
    · unfold runWarmup
      rw [if_pos (i2.trans hw)]
      split_ifs with hz
      · exact ⟨by simp, fun s' hs' => by cases hs'⟩
      · have hl := TraceP.warmupLoop (e := e) (rnd := rnd) (P := P) (N := e.nPrior / e.nActive) (fun q q' i _ hq hst => by
          obtain ⟨g1, g2⟩ := warmupStep_warmup hst
          rcases hq with hq | hq
          · exact .inl (g1.trans hq)
          · exact .inr (by rw [g2]; omega)) a.saveEvery s.t (e.nPrior / e.nActive) 0 s1 (by omega) (.inl (i2.trans hw))
        refine hl.andThen fun s2 h2 _ => ⟨by simp, fun s' hs' => ?_⟩
        simp only [Except.ok.injEq] at hs'
        rw [← hs']
        refine .inr ?_
        have := warmupLoop_t _ _ _ _ h2
        simp only [this, i1, le_refl]
    · refine TraceP.smcLoop (P := P) (fun q q' hq hst => ?_) _ _ _ _ p2
      obtain ⟨g1, g2⟩ := smcStep_keep hst
      rcases hq with hq | hq
      · exact .inl (g1.trans hq)
      · exact .inr (by rw [g2]; omega)
    · obtain ⟨g1, g2, -⟩ := finalEvidence_keep h4
      rcases p3 with hq | hq
      · exact .inl (g2.trans hq)
      · exact .inr (by rw [g1]; exact hq)
    · refine ⟨fun sv hsv => ?_, fun s' hs' => ?_⟩
      · cases hk : a.saveEvery with
        | none => simp [hk] at hsv
        | some k =>
          simp only [hk, List.mem_singleton] at hsv
          rw [hsv]; exact p4
      · simp only [Except.ok.injEq] at hs'
        rw [← hs']; exact p4
  exact hP.1

theorem run_t {s' : Sampler 2 Unit Unit} (hr : (run (env true) rnd 0 1 (args 0) start).2 = .ok s') : s'.t = 3 := by
  obtain ⟨s1, its, h1, hi, -, hl, -⟩ := first_run true 0
  rw [hr] at h1
  simp only [Except.ok.injEq] at h1
  subst h1
  obtain ⟨k1, k2⟩ := C58_iter_column (env true) rnd 0 1 (args 0) start s' true (fresh true) (by simp [env]) hr
  have := congrArg List.length k1
  rw [hi.past] at this
  simp only [columns, List.length_map, hl, List.length_append, List.length_range, List.length_replicate] at this
  have hW : (env true).nPrior / (env true).nActive = 2 := by simp [env]
  rw [hW] at this k2
  omega

/-- **C55 is false as stated.** The run of the example writes, in its warm-up, a state file from which no resumed run
reaches the history of the uninterrupted run. -/
theorem C55_not_always : ∃ s' sv, (run (env true) rnd 0 1 (args 0) start).2 = .ok s' ∧ sv ∈ (run (env true) rnd 0 1 (args 0) start).1 ∧
    ∀ (rnd' : Rnd 2 Unit) (fuel n : ℕ) (a : RunArgs) (s'' : Sampler 2 Unit Unit), (run (env true) rnd' fuel n a sv.state).2 = .ok s'' →
      s''.particles.past ≠ s'.particles.past := by
  obtain ⟨s', its, hr, hi, -, hl, -⟩ := first_run true 0
  have ht : s'.t = 3 := run_t hr
  obtain ⟨c1, -, c3⟩ := (C56_schedule (env true) rnd 0 1 (args 0) start).2 1 rfl one_pos
  have hn := c1 s' hr
  have h1 : SaveName.iter 1 ∈ (run (env true) rnd 0 1 (args 0) start).1.map (·.name) := by
    rw [hn, ht]
    simp [schedule, start]
  obtain ⟨sv, hsv, hname⟩ := List.mem_map.mp h1
  refine ⟨s', sv, hr, hsv, fun rnd' fuel n a s'' hr' => ?_⟩
  have ht1 : sv.state.t = 1 := by
    rcases c3 sv hsv with h | ⟨h, -⟩
    · rw [hname] at h; simpa using h.symm
    · rw [hname] at h; cases h
  have hw : sv.state.warmup = true := by
    rcases warm_saves (s := start) rfl sv hsv with h | h
    · exact h
    · rw [ht1] at h; simp [start, env] at h
  exact (C55_warmup_restarts (env true) rnd rnd' 0 1 fuel n (args 0) a start s' s'' true (fresh true) (by simp [env]) hr sv hsv hw hr').2

/-! ### The hypotheses of the theorems about runs and sessions are met

The claims are repeated for the concrete sampler, so that it can be seen that they say something. -/

theorem proper : ProperLike (d := 2) (fun _ => fin 0) := (flat true).proper

/-- C13, C21, C29, C74 -/
example : ∃ s, Session (env true) true s ∧ s.particles.past.x.length = 3 ∧
    (∃ T, Rectangular T 2 s.particles.past) ∧
    (∃ bs : List ℝ, s.particles.past.beta = bs.map fin ∧ bs.Pairwise (· ≤ ·) ∧ ∀ b ∈ bs, 0 ≤ b ∧ b ≤ 1) ∧
    (∀ xs ∈ s.particles.past.x, ∀ x ∈ xs, ∃ y : Fin 2 → ℝ, x = pt y) := by
  obtain ⟨s, -, hs, hl⟩ := session true 0
  refine ⟨s, hs, hl, C13_rectangular (user true) (configured true) hs, C21_session (user true) (configured true) hs, fun xs hxs x hx => ?_⟩
  obtain ⟨y, hy, -⟩ := C74_inside (user true) (configured true) hs xs hxs x hx
  exact ⟨y, hy⟩

example : ∃ (s : Sampler 2 Unit Unit) (its : List (Iter 2 (List Unit))), s.particles.past = columns its ∧ its.length = 3 ∧
    ∀ it ∈ its, ∃ rows, rows.length = 2 ∧ IsRows true it rows := by
  obtain ⟨s, -, hs, hl⟩ := session true 0
  obtain ⟨its, h1, h2⟩ := C29_run (user true) (configured true) hs
  refine ⟨s, its, h1, by rw [h1] at hl; simpa [columns] using hl, fun it hit => ?_⟩
  obtain ⟨rows, r1, r2, -⟩ := h2 it hit
  exact ⟨rows, r1, r2⟩

/-- C14, C56: the run writes three files, each holding a continuation of the one before. -/
example : (run (env true) rnd 0 1 (args 0) start).1.Pairwise (fun p q => Extends p.state.particles.past q.state.particles.past) ∧
    (run (env true) rnd 0 1 (args 0) start).1.map (·.name) = [.iter 1, .iter 2, .final] := by
  refine ⟨(C14_append_only (env true) rnd 0 1 (args 0) start).2.1, ?_⟩
  obtain ⟨s', hr, ht⟩ : ∃ s', (run (env true) rnd 0 1 (args 0) start).2 = .ok s' ∧ s'.t = 3 := by
    obtain ⟨s', its, hr, hi, -, hl, -⟩ := first_run true 0
    exact ⟨s', hr, run_t hr⟩
  rw [((C56_schedule (env true) rnd 0 1 (args 0) start).2 1 rfl one_pos).1 s' hr, ht]
  rfl

/-- C24 -/
example : ∃ s', (run (env true) rnd 0 1 (args 0) start).2 = .ok s' ∧ ∃ (stages : List Stage) (b : ℝ), Holds s'.particles.past stages ∧
    Rect stages 2 ∧ s'.particles.past.beta.getLast? = some (fin b) ∧ 1 - b < 1e-4 ∧ 6 ≤ sizeAt .ess stages 1 := by
  obtain ⟨s', hr, hs, -⟩ := session true 0
  refine ⟨s', hr, ?_⟩
  simpa [args, env] using C24_run_reached (user true) proper (configured true) (.fresh (fresh true)) draws 0 1 (args 0) hr

/-- C60: both branches. -/
example : ∃ s', (run (env true) rnd 0 1 (args 3) start).2 = .ok s' ∧ s'.logzErr.isSome = true := by
  obtain ⟨s', hr, -⟩ := session true 3
  exact ⟨s', hr, (C60_which_evidence (env true) rnd 0 1 (args 3) start s' hr).1.mpr ⟨rfl, by simp [args]⟩⟩

example : ∃ s', (run (env false) rnd 0 1 (args 3) start).2 = .ok s' ∧ s'.logzErr = none := by
  obtain ⟨s', hr, -⟩ := session false 3
  refine ⟨s', hr, ?_⟩
  have := (C60_which_evidence (env false) rnd 0 1 (args 3) start s' hr).1
  simpa [env] using this

/-- C65 -/
example : ∃ s', (run (env true) rnd 0 1 (args 0) start).2 = .ok s' ∧ rnd.prior 4 <+: s'.evals ∧ (rnd.prior 4).length = 4 := by
  obtain ⟨s', hr, -⟩ := session true 0
  have hl : (rnd.prior (env true).nPrior).length = (env true).nPrior := by simp [rnd]
  exact ⟨s', hr, (C65_warmup (env true) rnd 0 1 (args 0) start s' true (fresh true) (by simp [env]) (by simp [env]) hl hr).2.2.2.2 (by simp [env]),
    by simp [rnd]⟩

/-- C75, C72: in the state after the run another iteration is possible, and its geometry has been fitted. -/
example (p : Bool) : ∃ (s s1 s2 : Sampler 2 Unit Unit) (c c1 : Cur 2 Unit) (fuel : ℕ), Session (env p) true s ∧ reweight (env p) fuel s c = .ok (s1, c1) ∧
    train (env p) rnd s1 c1 = .ok s2 ∧ (p = true → s2.thetaGeometry.isSome = true) ∧ (p = false → s2.uGeometry.isSome = true) := by
  obtain ⟨s, its, hr, hi, -, hl, -, -, -, h8, h9⟩ := first_run p 0
  have hs : Session (env p) true s := .ran rnd 0 1 (args 0) (.fresh (fresh p)) draws hr
  have hd : Draws s.scaler.low s.scaler.high rnd := by rw [h8, h9]; exact draws
  obtain ⟨fuel, h⟩ := C75_iteration_returns (env p) _ _ _ true (user p) (configured p) (flat p).proper s s hs rnd hd (reliable p) .refl
    (by rw [hi.past]; intro h; simp [columns] at h; rw [h] at hl; simp at hl)
  obtain ⟨s', h⟩ := h fuel le_rfl
  obtain ⟨c, s1, c1, s2, c2, s3, c3, h0, h1, h2, -⟩ := smcStep_ok h
  refine ⟨s, s1, s2, c, c1, fuel, hs, h1, h2, ?_⟩
  simpa [env] using C72_geometry_fitted (env p) rnd true s s s1 s2 c c1 fuel hs .refl h1 h2

example : (∃ s', (run (env true) rnd 0 5 ⟨100, 3, none⟩ start).2 = .ok s') ∨ (run (env true) rnd 0 5 ⟨100, 3, none⟩ start).2 = .error .diverged :=
  C75_no_exception (env true) _ _ _ true (user true) (configured true) proper start (.fresh (fresh true)) rnd draws (reliable true) _
    (by simp) (fun _ i hi => by
      refine ⟨pt fun _ => ((i * 2 : ℕ) : ℝ), ?_, rfl⟩
      have hi' : i < 2 := by simpa [env] using hi
      have : i = 0 ∨ i = 1 := by omega
      rcases this with rfl | rfl <;> simp [start, rnd, env, List.range_succ]) (fun h => by cases h) 0 5

end Poco.Demo
