import Verif.Props.Total
import Verif.Props.DemoPosterior

/-! C46 for whole runs: no infinite log-likelihood is stored by the warm-up. -/

namespace Poco
open F Spec

variable {d : ℕ} {B Φ : Type} {e : SamplerEnv d B Φ} {ll lp : Pt d → F} {bb : Pt d → List B} {hb : Bool}
  {s s' : Sampler d B Φ} {rnd : Rnd d Φ} {its : List (Iter d (List B))}

/-- No infinite log-likelihood is stored. -/
def Spec.NoInf (s : Sampler d B Φ) : Prop := ∀ v ∈ s.particles.past.logl.flatten, v.isinf = false

theorem noInf_warmupStep (hu : UserFns e ll lp bb hb) (hc : Configured e) (h : Inv e ll lp bb hb s its) {i : ℕ}
    (hi : i < e.nPrior / e.nActive) (hm : warmupStep e rnd s i = .ok s') (hn : NoInf s) : NoInf s' := by
  cases hps : s.priorSamples with
  | none =>
    exfalso
    unfold warmupStep warmupBatch at hm
    rw [hps] at hm
    cases hm
  | some ps =>
    obtain ⟨hok, xs, rfl, x2, x3⟩ := h.prior ps hps
    have hlen : (i + 1) * e.nActive ≤ xs.length := by
      rw [x2]
      exact (Nat.le_div_iff_mul_le hc.1).mp hi
    obtain ⟨b, rows, ys, r1, r2, r3, y1, y2, rfl⟩ := warmupStep_ok hu hok h.blobs' hps x3 i hc.1 hlen hm
    intro v hv
    rw [show ({ s with priorSamples := some (ys.map pt), haveBlobs := hb, calls := s.calls + e.nActive,
                       cur := some { it := warmupIter b e.nActive s.t (s.calls + e.nActive) s.nEffective, weights := none },
                       particles := s.particles.update (Cols.full (warmupIter b e.nActive s.t (s.calls + e.nActive) s.nEffective)),
                       t := s.t + 1,
                       evals := s.evals ++ ((xs.drop (i * e.nActive)).take e.nActive).map pt } : Sampler d B Φ).particles.past =
        columns (its ++ [warmupIter b e.nActive s.t (s.calls + e.nActive) s.nEffective]) from
      update_columns _ its h.past _] at hv
    simp only [columns, List.map_append, List.map_cons, List.map_nil, List.flatten_append, List.mem_append] at hv
    rcases hv with hv | hv
    · exact hn v (by rw [h.past]; exact hv)
    · simp only [List.flatten_cons, List.flatten_nil, List.append_nil] at hv
      rw [r2.logl] at hv
      obtain ⟨r, hr, rfl⟩ := List.mem_map.mp hv
      exact (r3 r hr).2

theorem noInf_move (hu : UserFns e ll lp bb hb) (hc : Configured e) (h : Inv e ll lp bb hb s its)
    (hn : s.warmup = true → NoInf s) (hm : Move e rnd s s') : s'.warmup = true → NoInf s' := by
  cases hm with
  | init a hm =>
    intro hw
    obtain ⟨h1, h2⟩ : s'.particles = s.particles ∧ s'.warmup = s.warmup := by
      unfold runInit at hm
      cases hps : s.priorSamples with
      | some ps => simp only [hps, Except.ok.injEq] at hm; subst hm; exact ⟨rfl, rfl⟩
      | none =>
        simp only [hps] at hm
        obtain ⟨sc, -, hm⟩ := bind_ok hm
        simp only [pure, Except.pure, Except.ok.injEq] at hm
        subst hm
        exact ⟨rfl, rfl⟩
    have := hn (h2 ▸ hw)
    unfold Spec.NoInf at this ⊢
    rwa [h1]
  | warm i hw hi hm => exact fun _ => noInf_warmupStep hu hc h hi hm (hn hw)
  | endWarm hw => intro hw'; cases hw'
  | smc fuel hw hm => intro hw'; rw [(smcStep_keep hm).1, hw] at hw'; cases hw'
  | evidence hw hm =>
    intro hw'
    rcases finalEvidence_ok hm with ⟨-, -, hm⟩ | ⟨-, lw, z, -, rfl⟩
    · obtain ⟨inv, ll', bl, hbl, -, -, rfl⟩ := computeEvidence_ok hm
      exact absurd (hw.symm.trans hw') (by simp)
    · exact absurd (hw.symm.trans hw') (by simp)

theorem noInf_moves (hu : UserFns e ll lp bb hb) (hc : Configured e) (hd : Draws s.scaler.low s.scaler.high rnd)
    (h : Inv e ll lp bb hb s its) (hn : s.warmup = true → NoInf s) (hm : Moves e rnd s s') : s'.warmup = true → NoInf s' := by
  induction hm with
  | refl => exact hn
  | tail hm0 hm ih =>
    obtain ⟨m1, k1, -⟩ := h.moves hu hc hd hm0
    exact noInf_move hu hc k1 ih hm

theorem Spec.Session.noInf (hu : UserFns e ll lp bb hb) (hc : Configured e) (h : Session e hb s) :
    s.warmup = true → NoInf s := by
  induction h with
  | fresh h =>
    intro _ v hv
    rw [h.particles] at hv
    simp [Particles.init] at hv
  | ran rnd fuel n a hs hd hr ih =>
    obtain ⟨its, hi⟩ := hs.inv hu hc (ll := ll) (lp := lp) (bb := bb)
    exact noInf_moves hu hc hd hi ih ((Along.run fuel n a _).to_end _ hr).1
  | loaded rnd fuel n a sv hs hd hr ih =>
    obtain ⟨its, hi⟩ := hs.inv hu hc (ll := ll) (lp := lp) (bb := bb)
    exact noInf_moves hu hc hd hi ih ((Along.run fuel n a _).from_start sv hr)

theorem warmupStep_allInf (hu : UserFns e ll lp bb hb) (hc : Configured e) (h : Inv e ll lp bb hb s its) {ps : List (Pt d)}
    (hps : s.priorSamples = some ps) {i : ℕ} (hi : i < e.nPrior / e.nActive)
    (hx : ∀ x ∈ (ps.drop (i * e.nActive)).take e.nActive, (ll x).isinf = true) :
    warmupStep e rnd s i = .error .valueError := by
  obtain ⟨hok, xs, rfl, x2, x3⟩ := h.prior ps hps
  have e1 : (i + 1) * e.nActive = i * e.nActive + e.nActive := by ring
  have hle : (i + 1) * e.nActive ≤ e.nPrior := (Nat.le_div_iff_mul_le hc.1).mp hi
  have hlen : ((xs.drop (i * e.nActive)).take e.nActive).length = e.nActive := by
    rw [List.length_take, List.length_drop]; omega
  have hpos := hc.1
  have hne : (xs.drop (i * e.nActive)).take e.nActive ≠ [] := by
    intro hcon
    rw [hcon] at hlen
    simp at hlen
    omega
  obtain ⟨b0, rows, k1, k2, k3, k4⟩ := warmupBatch_ok hu hok hps x3 i hne
  have hrl : rows ≠ [] := by
    rintro rfl
    have := congrArg List.length (k2.x.symm.trans k3)
    rw [List.length_map, List.length_map, hlen] at this
    simp at this
    omega
  have hall : ∀ r ∈ rows, r.logl.isinf = true := by
    intro r hr
    have : r.x ∈ rows.map (·.x) := List.mem_map_of_mem hr
    rw [← k2.x, k3, List.map_take, List.map_drop] at this
    rw [(k4 r hr).1.2.2.1]
    exact hx _ this
  have hhb : (s.haveBlobs || hb) = hb := by
    cases hv : s.haveBlobs
    · rfl
    · rw [h.blobs' hv]; rfl
  rw [hhb] at k1
  have := (replace_isinf hb b0 rows k2 (rnd.warm s.t)).1 hall hrl
  unfold warmupStep
  rw [k1]
  simp only [bind, Except.bind, this]

theorem warmupLoop_allInf (hu : UserFns e ll lp bb hb) (hc : Configured e)
    {k : Option ℕ} (hk : k ≠ some 0) (t0 : ℕ) (ps : List (Pt d)) (n : ℕ) :
    ∀ (i : ℕ) (s : Sampler d B Φ) (its : List (Iter d (List B))),
    i + n ≤ e.nPrior / e.nActive → (∃ j, i ≤ j ∧ j < i + n ∧
      ∀ x ∈ (ps.drop (j * e.nActive)).take e.nActive, (ll x).isinf = true) →
    s.warmup = true → Inv e ll lp bb hb s its → (∃ qs, s.priorSamples = some qs ∧ qs.drop (i * e.nActive) = ps.drop (i * e.nActive)) →
    (warmupLoop e rnd k t0 n i s).2 = .error .valueError := by
  induction n with
  | zero => rintro i s its _ ⟨j, h1, h2, -⟩; omega
  | succ n ih =>
    intro i s its hi hx hw h hq
    obtain ⟨qs, q1, q2⟩ := hq
    unfold warmupLoop
    have hsave := save_total hk t0 s
    have key : ∀ f : Sampler d B Φ → Trace d B Φ, ((Trace.save k t0 s).andThen f).2 = (f s).2 := by
      intro f
      generalize hT : Trace.save k t0 s = T at hsave
      obtain ⟨l, r⟩ := T
      simp only at hsave
      subst hsave
      rfl
    rw [key]
    by_cases hall : ∀ x ∈ (ps.drop (i * e.nActive)).take e.nActive, (ll x).isinf = true
    · rw [← q2] at hall
      rw [warmupStep_allInf hu hc h q1 (by omega) hall]
      rfl
    · push Not at hall
      have hxi : ∃ x ∈ (qs.drop (i * e.nActive)).take e.nActive, (ll x).isinf = false := by
        obtain ⟨x, hx1, hx2⟩ := hall
        exact ⟨x, by rw [q2]; exact hx1, by simpa using hx2⟩
      obtain ⟨s2, w1, q', w2, w3⟩ := h.warmupStep_total (rnd := rnd) hu hc q1 (by omega) hxi
      obtain ⟨it, v1, v2⟩ := h.warmStep hu hc hw (by omega) w1
      have e1 : (i + 1) * e.nActive = i * e.nActive + e.nActive := by ring
      obtain ⟨j, j1, j2, j3⟩ := hx
      have hij : i ≠ j := by
        rintro rfl
        obtain ⟨x, hx1, hx2⟩ := hall
        exact hx2 (j3 x hx1)
      rw [w1]
      exact ih (i + 1) s2 (its ++ [it]) (by omega) ⟨j, by omega, by omega, j3⟩ ((warmupStep_warmup w1).1.trans hw) v1 ⟨q', w2, by
        rw [w3, e1, ← List.drop_drop, q2, List.drop_drop]⟩

/-- `C46_run` with the test the code makes. -/
theorem run_isinf (e : SamplerEnv d B Φ) (ll lp : Pt d → F) (bb : Pt d → List B) (hb : Bool) (hu : UserFns e ll lp bb hb)
    (hc : Configured e) (s : Sampler d B Φ) (hs : Session e hb s) (hw : s.warmup = true) (rnd : Rnd d Φ)
    (hd : Draws s.scaler.low s.scaler.high rnd) (a : RunArgs) (hk : a.saveEvery ≠ some 0) (ps : List (Pt d))
    (hps : ps = s.priorSamples.getD (rnd.prior e.nPrior)) :
    ((∃ i < e.nPrior / e.nActive, ∀ x ∈ (ps.drop (i * e.nActive)).take e.nActive, (ll x).isinf = true) →
      ∀ fuel n, (run e rnd fuel n a s).2 = .error .valueError) ∧
    ((∀ i < e.nPrior / e.nActive, ∃ x ∈ (ps.drop (i * e.nActive)).take e.nActive, (ll x).isinf = false) →
      ∃ s1 s2, runInit e rnd a s = .ok s1 ∧ (runWarmup e rnd a s.t s1).2 = .ok s2 ∧ s2.warmup = false ∧
        (s2.particles.past.logl.length = s.particles.past.logl.length + e.nPrior / e.nActive) ∧
        ∀ v ∈ s2.particles.past.logl.flatten, v.isinf = false) := by
  obtain ⟨its, h⟩ := hs.inv hu hc (ll := ll) (lp := lp) (bb := bb)
  subst hps
  constructor
  · rintro ⟨i, hi, hx⟩ fuel n
    obtain ⟨s1, i1, i2, i3⟩ := h.runInit_total hc hd a
    obtain ⟨j1, -⟩ := h.init hc hd i1
    have hl := warmupLoop_allInf (rnd := rnd) hu hc hk s.t _ (e.nPrior / e.nActive) 0 s1 its (by omega)
      ⟨i, by omega, by omega, hx⟩ (i3.trans hw) j1 ⟨_, i2, rfl⟩
    unfold run
    simp only [i1, Trace.lift, Trace.andThen, List.nil_append]
    unfold runWarmup
    rw [i3, hw, if_pos rfl, if_neg (by have := hc.1; omega)]
    generalize warmupLoop e rnd a.saveEvery s.t (e.nPrior / e.nActive) 0 s1 = T at hl
    obtain ⟨l, r⟩ := T
    simp only at hl
    subst hl
    rfl
  · intro hsup
    obtain ⟨s1, s2, its', h1, h2, h3, h4, h5, h6, -, -, h9⟩ := h.start_total hu hc hd a hk (fun _ => hsup) (fun hh => by
      rw [hw] at hh; cases hh)
    refine ⟨s1, s2, h1, h2, h6, ?_, ?_⟩
    · rw [h3.past, h.past]
      simp [columns, h9 hw]
    · obtain ⟨j1, j2, j3⟩ := h.init hc hd h1
      have hw1 : s1.warmup = true := by
        obtain ⟨s1', i1, -, i3⟩ := h.runInit_total hc hd a
        rw [h1] at i1
        simp only [Except.ok.injEq] at i1
        rw [i1, i3, hw]
      have hn1 := noInf_move hu hc h (hs.noInf hu hc) (.init a h1) hw1
      unfold runWarmup at h2
      rw [hw1, if_pos rfl, if_neg (by have := hc.1; omega)] at h2
      obtain ⟨s3, k1, k2⟩ := andThen_ok h2
      simp only [Except.ok.injEq] at k2
      subst k2
      obtain ⟨al, aw⟩ := Along.warmupLoop (e := e) (rnd := rnd) a.saveEvery s.t (e.nPrior / e.nActive) 0 s1 hw1 (by omega)
      have := noInf_moves hu hc (by rw [j2, j3]; exact hd) j1 (fun _ => hn1) (al.to_end s3 k1).1 (aw s3 k1)
      exact this

/-- **C46**, whole runs.  Whatever the session up to now, a run that still has its warm-up before it and whose draws contain a
warm-up batch of infinite log-likelihoods only raises ValueError; otherwise the warm-up ends, and when it has ended no
infinite log-likelihood is stored. -/
theorem C46_run (e : SamplerEnv d B Φ) (ll lp : Pt d → F) (bb : Pt d → List B) (hb : Bool) (hu : UserFns e ll lp bb hb)
    (hc : Configured e) (s : Sampler d B Φ) (hs : Session e hb s) (hw : s.warmup = true) (rnd : Rnd d Φ)
    (hd : Draws s.scaler.low s.scaler.high rnd) (a : RunArgs) (hk : a.saveEvery ≠ some 0) (ps : List (Pt d))
    (hps : ps = s.priorSamples.getD (rnd.prior e.nPrior)) :
    ((∃ i < e.nPrior / e.nActive, ∀ x ∈ (ps.drop (i * e.nActive)).take e.nActive, IsInf (ll x)) →
      ∀ fuel n, (run e rnd fuel n a s).2 = .error .valueError) ∧
    ((∀ i < e.nPrior / e.nActive, ∃ x ∈ (ps.drop (i * e.nActive)).take e.nActive, ¬ IsInf (ll x)) →
      ∃ s1 s2, runInit e rnd a s = .ok s1 ∧ (runWarmup e rnd a s.t s1).2 = .ok s2 ∧ s2.warmup = false ∧
        (s2.particles.past.logl.length = s.particles.past.logl.length + e.nPrior / e.nActive) ∧
        ∀ v ∈ s2.particles.past.logl.flatten, ¬ IsInf v) := by
  have := run_isinf e ll lp bb hb hu hc s hs hw rnd hd a hk ps hps
  simp only [isinf_iff, isinf_false_iff] at this
  exact this

/-- **C46**, whole sessions: if the user's log-likelihood is a number or `-inf` everywhere, every log-likelihood stored by any
sequence of runs, resumed or not, is a number. -/
theorem C46_session_finite (e : SamplerEnv d B Φ) (ll lp : Pt d → F) (bb : Pt d → List B) (hb : Bool)
    (hu : UserFns e ll lp bb hb) (hc : Configured e) (hp : ∀ x, ll x = ninf ∨ ∃ r, ll x = fin r) (s : Sampler d B Φ)
    (hs : Session e hb s) : ∀ v ∈ s.particles.past.logl.flatten, ∃ r, v = fin r := by
  obtain ⟨its, h⟩ := hs.inv hu hc (ll := ll) (lp := lp) (bb := bb)
  rw [h.past]
  intro v hv
  obtain ⟨l, hl, hm⟩ := List.mem_flatten.mp hv
  obtain ⟨it, hit, rfl⟩ := List.mem_map.mp hl
  obtain ⟨rows, -, r2, r3, -⟩ := h.rows it hit
  rw [r2.logl] at hm
  obtain ⟨r, hr, rfl⟩ := List.mem_map.mp hm
  exact (r3 r hr).2.2 hp

/-- A likelihood that is `-inf` everywhere: the run raises. -/
example (fuel n : ℕ) : (run (Demo.envOf (fun _ => ninf) fun _ => fin 0) Demo.rnd fuel n (Demo.args 0) Demo.start).2 =
    .error .valueError :=
  (C46_run _ _ _ _ true (Demo.userOf _ _) (Demo.configuredOf _ _) Demo.start (.fresh (Demo.freshOf _ _)) rfl Demo.rnd Demo.draws
    (Demo.args 0) (by simp [Demo.args]) _ rfl).1 ⟨0, by simp [Demo.envOf, Demo.env], fun _ _ => .inl rfl⟩ fuel n

/-- A likelihood that is `-inf` at the first draw of each batch: the warm-up ends with no infinite value stored. -/
example : ∃ ll : Pt 2 → F, ll (pt fun _ => 0) = ninf ∧ ∃ s1 s2,
    runInit (Demo.envOf ll fun _ => fin 0) Demo.rnd (Demo.args 0) Demo.start = .ok s1 ∧
    (runWarmup (Demo.envOf ll fun _ => fin 0) Demo.rnd (Demo.args 0) Demo.start.t s1).2 = .ok s2 ∧
    s2.particles.past.logl.length = 2 ∧ ∀ v ∈ s2.particles.past.logl.flatten, ¬ IsInf v := by
  classical
  refine ⟨fun x => if x 0 = fin 0 then ninf else fin 0, by simp [pt], ?_⟩
  obtain ⟨s1, s2, h1, h2, -, h4, h5⟩ := (C46_run (Demo.envOf (fun x => if x 0 = fin 0 then ninf else fin 0) fun _ => fin 0) _ _ _
    true (Demo.userOf _ _) (Demo.configuredOf _ _) Demo.start (.fresh (Demo.freshOf _ _)) rfl Demo.rnd Demo.draws
    (Demo.args 0) (by simp [Demo.args]) _ rfl).2 (fun i hi => by
      have : i < 2 := hi
      refine ⟨pt fun _ => ((i * 2 + 1 : ℕ) : ℝ), ?_, ?_⟩
      · interval_cases i <;> simp [Demo.start, Demo.rnd, Demo.envOf, Demo.env, List.range_succ]
      · rw [if_neg (by simp only [pt, fin_inj]; positivity)]; simp [IsInf])
  exact ⟨s1, s2, h1, h2, h4, h5⟩

end Poco
