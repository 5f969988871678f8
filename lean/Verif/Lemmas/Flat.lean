import Verif.Props.Total

/-! Runs with a constant likelihood: they can be followed exactly, and serve as examples of whole runs. -/

namespace Poco
open F Spec

variable {d : ℕ} {B Φ : Type}

/-- All log-likelihoods and log-evidences are 0. -/
def FlatStages (H : List Stage) : Prop := ∀ st ∈ H, st.logz = 0 ∧ ∀ l ∈ st.logl, l = 0

theorem flat_weight {H : List Stage} (hne : H ≠ []) (hf : FlatStages H) (β : ℝ) : weight H β 0 = 1 := by
  have : mixture H 0 = 1 := by
    unfold mixture
    have : (H.map fun s => Real.exp (0 * s.beta) / Real.exp s.logz) = H.map fun _ => (1 : ℝ) := by
      apply List.map_congr_left
      intro s hs
      simp [(hf s hs).1]
    rw [this]
    have : (H.length : ℝ) ≠ 0 := by
      have := List.length_pos_iff.mpr hne
      positivity
    simp [this]
  simp [weight, this]

theorem flat_weights {H : List Stage} (hne : H ≠ []) (hf : FlatStages H) (β : ℝ) :
    weights H β = (allLogl H).map fun _ => 1 := by
  unfold weights
  apply List.map_congr_left
  intro l hl
  obtain ⟨st, h1, h2⟩ := List.mem_flatMap.mp hl
  rw [(hf st h1).2 l h2, flat_weight hne hf]

theorem flat_size {H : List Stage} {n : ℕ} (hr : Rect H n) (hf : FlatStages H) (β : ℝ) :
    sizeAt .ess H β = ((H.length * n : ℕ) : ℝ) := by
  have h1 := (ess_eq_length_iff (weights_isWeights hr β)).mpr (by
    rw [flat_weights hr.1 hf]
    intro x hx y hy
    obtain ⟨-, -, rfl⟩ := List.mem_map.mp hx
    obtain ⟨-, -, rfl⟩ := List.mem_map.mp hy
    rfl)
  change ess (weights H β) = _
  rw [h1]
  unfold weights
  rw [List.length_map, hr.length]

theorem flat_logz {H : List Stage} {n : ℕ} (hr : Rect H n) (hf : FlatStages H) (β : ℝ) :
    Real.log (totalWeight H β / (allLogl H).length) = 0 := by
  have : totalWeight H β = (allLogl H).length := by
    change (weights H β).sum = _
    rw [flat_weights hr.1 hf]
    simp
  have h0 : ((allLogl H).length : ℝ) ≠ 0 := by
    have := List.length_pos_iff.mpr hr.allLogl_ne
    positivity
  rw [this, div_self h0, Real.log_one]

section
variable {e : SamplerEnv d B Φ} {ll lp : Pt d → F} {bb : Pt d → List B} {hb : Bool} {s : Sampler d B Φ} {rnd : Rnd d Φ}
  {its : List (Iter d (List B))}

/-- What is needed of the settings, besides `UserFns`, `Configured`, `Reliable`. -/
structure FlatEnv (e : SamplerEnv d B Φ) (ll : Pt d → F) : Prop where
  /-- constant where it is not zero -/
  ll : ∀ x, ll x = fin 0 ∨ ll x = ninf
  metric : e.metric = .ess
  dynamic : e.dynamic = false

theorem FlatEnv.proper (h : FlatEnv e ll) : ProperLike ll := fun x => (h.ll x).elim (fun h => .inr ⟨0, h⟩) .inl

theorem Inv.flat (hf : FlatEnv e ll) (hc : Configured e) (h : Inv e ll lp bb hb s its) (hne : its ≠ [])
    (hz : ∀ it ∈ its, it.logz = fin 0) :
    ∃ (H : List Stage) (b : ℝ) (c : Cur d B), Holds s.particles.past H ∧ Rect H e.nActive ∧ FlatStages H ∧ H.length = its.length ∧ b ≤ 1 ∧
      H.getLast?.map (fun s => (s.beta, s.logz)) = some (b, 0) ∧ s.cur = some c ∧ its.getLast? = some c.it ∧ c.it.beta = fin b := by
  obtain ⟨H, b, z, hH, hR, hb1, -, hl, ⟨c, hcur, hlast, hcb⟩, hlen⟩ := h.stages hc hf.proper hne
  have hlogz : its.map (·.logz) = H.map (fun s => fin s.logz) := by
    have := hH.2.2
    rw [h.past] at this
    exact this
  have hlogl : (its.map fun it => it.logl) = H.map (fun s => s.logl.map fin) := by
    have := hH.1
    rw [h.past] at this
    exact this
  have hfl : FlatStages H := by
    intro st hst
    constructor
    · have : fin st.logz ∈ H.map (fun s => fin s.logz) := List.mem_map_of_mem hst
      rw [← hlogz] at this
      obtain ⟨it, h1, h2⟩ := List.mem_map.mp this
      rw [hz it h1] at h2
      simpa using h2.symm
    · intro l hl'
      have : st.logl.map fin ∈ H.map (fun s => s.logl.map fin) := List.mem_map_of_mem hst
      rw [← hlogl] at this
      obtain ⟨it, h1, h2⟩ := List.mem_map.mp this
      obtain ⟨rows, r1, r2, r3, -⟩ := h.rows it h1
      have hm : fin l ∈ st.logl.map fin := List.mem_map_of_mem hl'
      rw [← h2, r2.logl] at hm
      obtain ⟨r, hr, hrl⟩ := List.mem_map.mp hm
      rw [(r3 r hr).1.2.2.1] at hrl
      rcases hf.ll r.x with h0 | h0 <;> rw [h0] at hrl
      · simpa using hrl.symm
      · cases hrl
  refine ⟨H, b, c, hH, hR, hfl, hlen, hb1, ?_, hcur, hlast, hcb⟩
  rw [hl]
  obtain ⟨st, h1, h2⟩ := Option.map_eq_some_iff.mp hl
  simp only [Prod.mk.injEq] at h2
  rw [← h2.2, (hfl st (List.mem_of_getLast? h1)).1]

/-- The temperature goes straight to 1 when the number of particles exceeds the wanted effective size. -/
theorem flat_up (hf : FlatEnv e ll) {past : Cols d (List B) List} {H : List Stage} {b : ℝ} (hH : Holds past H) (hR : Rect H e.nActive) (hfl : FlatStages H)
    (hl : H.getLast?.map (fun s => (s.beta, s.logz)) = some (b, 0)) {N : ℕ} (hN : N < H.length * e.nActive) (fuel : ℕ) :
    chooseBeta past e.metric (F.ofNat N) fuel = .ok (fin 1, fin 0, fin ((H.length * e.nActive : ℕ) : ℝ)) := by
  obtain ⟨st, hs, hs2⟩ := Option.map_eq_some_iff.mp hl
  simp only [Prod.mk.injEq] at hs2
  have l1 : getAt past.beta (-1) = .ok (fin b) := by
    apply getAt_neg_one
    rw [hH.2.1, List.getLast?_map, hs]; simp [hs2.1]
  have hsz := fun β => flat_size hR hfl β
  have hcast : ((N : ℕ) : ℝ) < ((H.length * e.nActive : ℕ) : ℝ) := by exact_mod_cast hN
  rw [hf.metric]
  simp only [chooseBeta, l1, essAt_fin _ H _ hR hH, computeLogwLogz_fin _ H _ hR hH, bind, Except.bind, pure,
    Except.pure, ge_iff_le, F.fin_le, F.ofNat, hsz, flat_logz hR hfl]
  rw [if_neg (by push Not; exact hcast), if_pos hcast.le]

/-- The temperature stays when there are not enough particles. -/
theorem flat_stay (hf : FlatEnv e ll) {past : Cols d (List B) List} {H : List Stage} {b : ℝ} (hH : Holds past H) (hR : Rect H e.nActive) (hfl : FlatStages H)
    (hl : H.getLast?.map (fun s => (s.beta, s.logz)) = some (b, 0)) {N : ℕ} (hN : H.length * e.nActive ≤ N) (fuel : ℕ) :
    ∃ es, chooseBeta past e.metric (F.ofNat N) fuel = .ok (fin b, fin 0, es) := by
  obtain ⟨st, hs, hs2⟩ := Option.map_eq_some_iff.mp hl
  simp only [Prod.mk.injEq] at hs2
  have l1 : getAt past.beta (-1) = .ok (fin b) := by
    apply getAt_neg_one
    rw [hH.2.1, List.getLast?_map, hs]; simp [hs2.1]
  have l2 : getAt past.logz (-1) = .ok (fin 0) := by
    apply getAt_neg_one
    rw [hH.2.2, List.getLast?_map, hs]; simp [hs2.2]
  have hsz := fun β => flat_size hR hfl β
  have hcast : ((H.length * e.nActive : ℕ) : ℝ) ≤ ((N : ℕ) : ℝ) := by exact_mod_cast hN
  rw [hf.metric]
  simp only [chooseBeta, l1, l2, essAt_fin _ H _ hR hH, bind, Except.bind, pure,
    Except.pure, F.fin_le, F.ofNat, hsz]
  rw [if_pos hcast]
  exact ⟨_, rfl⟩

/-- One iteration goes straight to temperature 1. -/
theorem Inv.flat_step (hf : FlatEnv e ll) (hu : UserFns e ll lp bb hb) (hc : Configured e) (hd : Draws s.scaler.low s.scaler.high rnd)
    (hrel : Reliable e rnd) (h : Inv e ll lp bb hb s its) (hw : s.warmup = false) (hne : its ≠ []) (hz : ∀ it ∈ its, it.logz = fin 0)
    (hN : s.nEffective < its.length * e.nActive) (fuel : ℕ) :
    ∃ s' it, smcStep e rnd fuel s = .ok s' ∧ Inv e ll lp bb hb s' (its ++ [it]) ∧ it.logz = fin 0 ∧ it.beta = fin 1 ∧
      s'.nEffective = s.nEffective := by
  obtain ⟨H, b, c, hH, hR, hfl, hlen, hb1, hl, hcur, hlast, hcb⟩ := h.flat hf hc hne hz
  have hbeta := flat_up hf hH hR hfl hl (N := s.nEffective) (by rw [hlen]; exact hN) fuel
  obtain ⟨s', k1, k2, k3⟩ := h.smcStep_of_beta hu hc hrel hH hR hlen hne hbeta
  obtain ⟨it, v1, v2⟩ := h.smc hu hc hd hw k1
  have hb' : it.beta = fin 1 := by
    rw [v1.past, h.past] at k2
    change (its ++ [it]).map (·.beta) = its.map (·.beta) ++ [fin 1] at k2
    simpa using k2
  have hz' : it.logz = fin 0 := by
    rw [v1.past, h.past] at k3
    change (its ++ [it]).map (·.logz) = its.map (·.logz) ++ [fin 0] at k3
    simpa using k3
  refine ⟨s', it, k1, v1, hz', hb', ?_⟩
  obtain ⟨c', s1, c1, s2, c2, s3, c3, h0, h1, h2, h3, h4, rfl⟩ := smcStep_ok k1
  obtain ⟨nEff, beta, logz, ess, w, tr, -, g2, -, -, rfl⟩ := reweight_ok h1
  have hn : nEff = s.nEffective := by
    unfold reweightWeights at g2
    obtain ⟨w0, -, g2⟩ := bind_ok g2
    rw [hf.dynamic] at g2
    simp only [Bool.false_eq_true, if_false, pure, Except.pure, Except.ok.injEq, Prod.mk.injEq] at g2
    exact g2.2.symm
  obtain ⟨ws, k, r, -, -, -, h5⟩ := mutate_ok h4
  simp only [writeBack, Prod.mk.injEq] at h5
  obtain ⟨rfl, rfl⟩ := h5
  rcases train_ok h2 with ⟨-, flow, g, rfl⟩ | ⟨-, g, rfl⟩ <;> exact hn

theorem Inv.flat_notTermination (hf : FlatEnv e ll) (hc : Configured e) (h : Inv e ll lp bb hb s its) (hne : its ≠ [])
    (hz : ∀ it ∈ its, it.logz = fin 0) {b : ℝ} (hb : ∀ it, its.getLast? = some it → it.beta = fin b) :
    notTermination e s = .ok (decide (1e-4 ≤ 1 - b) || decide (its.length * e.nActive < s.nTotal)) := by
  obtain ⟨H, b', c, hH, hR, hfl, hlen, hb1, hl, hcur, hlast, hcb⟩ := h.flat hf hc hne hz
  have hsz := flat_size hR hfl 1
  rw [hlen] at hsz
  have hbb : c.it.beta = fin b := hb _ hlast
  unfold notTermination
  rw [hf.metric]
  simp only [essAt_fin _ H _ hR hH, hcur, orErr, bind, Except.bind, pure, Except.pure, hsz, hbb, F.ofNat, fin_sub, ge_iff_le,
    F.fin_le, F.fin_lt, Nat.cast_lt]

/-- The main loop makes exactly one iteration. -/
theorem Inv.flat_loop (hf : FlatEnv e ll) (hu : UserFns e ll lp bb hb) (hc : Configured e) (hd : Draws s.scaler.low s.scaler.high rnd)
    (hrel : Reliable e rnd) (h : Inv e ll lp bb hb s its) (hw : s.warmup = false) (hne : its ≠ []) (hz : ∀ it ∈ its, it.logz = fin 0)
    (hN : s.nEffective < its.length * e.nActive)
    (hgo : (∀ it, its.getLast? = some it → it.beta = fin 0) ∨
      ((∀ it, its.getLast? = some it → it.beta = fin 1) ∧ its.length * e.nActive < s.nTotal))
    (hT : s.nTotal ≤ (its.length + 1) * e.nActive) {k : Option ℕ} (hk : k ≠ some 0) (t0 fuel n : ℕ) :
    ∃ s' it, (smcLoop e rnd fuel k t0 (n + 1) s).2 = .ok s' ∧ Inv e ll lp bb hb s' (its ++ [it]) ∧ it.logz = fin 0 ∧ it.beta = fin 1 ∧
      s'.nEffective = s.nEffective ∧ smcStep e rnd fuel s = .ok s' ∧ (smcLoop e rnd fuel k t0 (n + 1) s).1 = (Trace.save k t0 s).1 := by
  obtain ⟨s', it, k1, k2, k3, k4, k5⟩ := h.flat_step hf hu hc hd hrel hw hne hz hN fuel
  have hgo' : notTermination e s = .ok true := by
    rcases hgo with hg | ⟨hg, hlt⟩
    · rw [h.flat_notTermination hf hc hne hz hg]
      norm_num
    · rw [h.flat_notTermination hf hc hne hz hg]
      simp [hlt]
  obtain ⟨c, c3, r, nEff, fl, fu, ug, tg, -, -, -, -, hs'⟩ := smcStep_shape k1
  have hT' : s'.nTotal = s.nTotal := by rw [hs']
  have hst : notTermination e s' = .ok false := by
    rw [k2.flat_notTermination hf hc (by simp) (by
      intro it' hit'
      rcases List.mem_append.mp hit' with hit' | hit'
      · exact hz it' hit'
      · simp at hit'; rw [hit']; exact k3) (b := 1) (by
      intro it' hit'
      simp at hit'
      rw [← hit']; exact k4), hT']
    rw [List.length_append, List.length_singleton]
    have : ¬ ((its.length + 1) * e.nActive < s.nTotal) := by omega
    simp only [this]
    norm_num
  have hend : smcLoop e rnd fuel k t0 n s' = ([], .ok s') := by
    unfold smcLoop
    simp only [hst]
  have hsv : Trace.save k t0 s = ((Trace.save k t0 s).1, .ok s) := Prod.ext rfl (save_total hk t0 s)
  have hall : smcLoop e rnd fuel k t0 (n + 1) s = ((Trace.save k t0 s).1, .ok s') := by
    unfold smcLoop
    simp only [hgo']
    rw [hsv]
    simp only [Trace.andThen, Trace.lift, k1, hend, List.append_nil]
  exact ⟨s', it, by rw [hall], k2, k3, k4, k5, k1, by rw [hall]⟩

theorem warmup_logz {a : RunArgs} {t0 : ℕ} {s s' : Sampler d B Φ} (h0 : ∀ z ∈ s.particles.past.logz, z = fin 0)
    (h1 : ∀ z ∈ s.particles.past.beta, z = fin 0)
    (hr : (runWarmup e rnd a t0 s).2 = .ok s') :
    (∀ z ∈ s'.particles.past.logz, z = fin 0) ∧ (∀ z ∈ s'.particles.past.beta, z = fin 0) ∧ s'.nEffective = s.nEffective ∧
      s'.nTotal = s.nTotal := by
  let P : Sampler d B Φ → Prop := fun q => (∀ z ∈ q.particles.past.logz, z = fin 0) ∧ (∀ z ∈ q.particles.past.beta, z = fin 0) ∧
    q.nEffective = s.nEffective ∧ q.nTotal = s.nTotal
  refine (TraceP.runWarmup (e := e) (rnd := rnd) (P := P) (fun q q' i _ hq hst => ?_) (fun q hq => hq) a t0 s ⟨h0, h1, rfl, rfl⟩).2 s' hr
  obtain ⟨b0, hb, b, -, -, rfl⟩ := warmupStep_shape hst
  refine ⟨fun z hz => ?_, fun z hz => ?_, hq.2.2⟩
  · simp only [Particles.update, Cols.full, warmupIter, Option.toList_some, List.mem_append, List.mem_singleton] at hz
    rcases hz with hz | hz
    · exact hq.1 z hz
    · exact hz
  · simp only [Particles.update, Cols.full, warmupIter, Option.toList_some, List.mem_append, List.mem_singleton] at hz
    rcases hz with hz | hz
    · exact hq.2.1 z hz
    · exact hz

/-- The rest of a run after the main loop. -/
theorem run_of_parts {fuel n : ℕ} {a : RunArgs} {s s1 s2 s3 s4 : Sampler d B Φ} (h1 : runInit e rnd a s = .ok s1)
    (h2 : (runWarmup e rnd a s.t s1).2 = .ok s2) (h3 : (smcLoop e rnd fuel a.saveEvery s.t n s2).2 = .ok s3)
    (h4 : finalEvidence e rnd s3 = .ok s4) : (run e rnd fuel n a s).2 = .ok s4 := by
  unfold run
  dsimp only
  exact andThen_of_ok (t := Trace.lift _) h1 (andThen_of_ok h2 (andThen_of_ok h3 (andThen_of_ok (t := Trace.lift _) h4 rfl)))

/-- Prior samples of finite likelihood. -/
theorem supported_of (hc : Configured e) {ps : List (Pt d)} (hl : ps.length = e.nPrior) (hf : ∀ x ∈ ps, (ll x).isinf = false) : Supported e ll ps := by
  intro i hi'
  have hle : (i + 1) * e.nActive ≤ e.nPrior := (Nat.le_div_iff_mul_le hc.1).mp hi'
  have e1 : (i + 1) * e.nActive = i * e.nActive + e.nActive := by ring
  have ha := hc.1
  have hlen : 0 < ((ps.drop (i * e.nActive)).take e.nActive).length := by
    rw [List.length_take, List.length_drop, hl]
    omega
  exact ⟨_, List.getElem_mem hlen, hf _ (List.mem_of_mem_drop (List.mem_of_mem_take (List.getElem_mem hlen)))⟩

/-- A run that starts with the warm-up, with a constant likelihood, returns after one iteration of the main loop. -/
theorem flat_warm_run (hf : FlatEnv e ll) (hu : UserFns e ll lp bb hb) (hc : Configured e) (hd : Draws s.scaler.low s.scaler.high rnd)
    (hrel : Reliable e rnd) (hi : Inv e ll lp bb hb s its) (hw : s.warmup = true) (hz0 : ∀ it ∈ its, it.logz = fin 0)
    (hsup : Supported e ll (s.priorSamples.getD (rnd.prior e.nPrior)))
    (hN : s.nEffective < (its.length + e.nPrior / e.nActive) * e.nActive) (a : RunArgs)
    (hk : a.saveEvery ≠ some 0) (hT : a.nTotal ≤ (its.length + e.nPrior / e.nActive + 1) * e.nActive) (fuel n : ℕ) :
    ∃ s' its', (run e rnd fuel (n + 1) a s).2 = .ok s' ∧ Inv e ll lp bb hb s' its' ∧ (∀ it ∈ its', it.logz = fin 0) ∧
      its'.length = its.length + e.nPrior / e.nActive + 1 ∧ s'.warmup = false ∧ s'.nEffective = s.nEffective ∧
      (∀ it, its'.getLast? = some it → it.beta = fin 1) ∧ s'.scaler.low = s.scaler.low ∧ s'.scaler.high = s.scaler.high ∧
      s'.particles.past.beta = List.replicate (its.length + e.nPrior / e.nActive) (fin 0) ++ [fin 1] := by
  obtain ⟨s1, s2, its', h1, h2, h3, h4, h5, h6, h7, h8, h9⟩ := hi.start_total hu hc hd a hk (fun _ => hsup) (fun hw' => by
    rw [hw] at hw'; cases hw')
  have hlen : its'.length = its.length + e.nPrior / e.nActive := h9 hw
  have hs1 : s1.particles = s.particles ∧ s1.nEffective = s.nEffective ∧ s1.nTotal = a.nTotal := by
    rcases runInit_ok h1 with ⟨-, rfl⟩ | ⟨-, sc, -, rfl⟩ <;> exact ⟨rfl, rfl, rfl⟩
  obtain ⟨z1, z2, z3, z4⟩ := warmup_logz (s := s1) (by
      rw [hs1.1, hi.past]
      intro z hz
      obtain ⟨it, hit, rfl⟩ := List.mem_map.mp hz
      exact hz0 it hit)
    (by
      rw [hs1.1, hi.past]
      intro z hz
      obtain ⟨it, hit, rfl⟩ := List.mem_map.mp hz
      exact hi.warm hw it hit) h2
  rw [h3.past] at z1 z2
  have hz : ∀ it ∈ its', it.logz = fin 0 := fun it hit => z1 _ (List.mem_map_of_mem hit)
  have hb0 : ∀ it, its'.getLast? = some it → it.beta = fin 0 := fun it hit =>
    z2 _ (List.mem_map_of_mem (List.mem_of_getLast? hit))
  have hd2 : Draws s2.scaler.low s2.scaler.high rnd := by rw [h7, h8]; exact hd
  obtain ⟨s3, it, k1, k2, k3, k4, k5, k6, k7⟩ := h3.flat_loop hf hu hc hd2 hrel h6 h4 hz (by rw [z3, hs1.2.1, hlen]; exact hN) (.inl hb0)
    (by rw [z4, hs1.2.2, hlen]; exact hT) hk s.t fuel n
  obtain ⟨s4, h4'⟩ := k2.finalEvidence_total (rnd := rnd) hu hc hf.proper (by simp)
  have hw3 := (smcStep_keep k6).1.trans h6
  obtain ⟨v1, v2⟩ := k2.evid hu hw3 h4'
  have hkeep : s4.warmup = s3.warmup ∧ s4.nEffective = s3.nEffective := by
    rcases finalEvidence_ok h4' with ⟨-, -, h⟩ | ⟨-, lw, z, -, rfl⟩
    · obtain ⟨inv, ll', bl, hbl, -, -, rfl⟩ := computeEvidence_ok h
      exact ⟨rfl, rfl⟩
    · exact ⟨rfl, rfl⟩
  have hsc3 : s3.scaler = s2.scaler := by
    obtain ⟨c, c3, r, nEff, fl, fu, ug, tg, -, -, -, -, rfl⟩ := smcStep_shape k6
    rfl
  refine ⟨s4, its' ++ [it], run_of_parts h1 h2 k1 h4', v1, ?_, by simp [hlen], hkeep.1.trans hw3, ?_, ?_, ?_, ?_, ?_⟩
  · intro it' hit'
    rcases List.mem_append.mp hit' with hit' | hit'
    · exact hz it' hit'
    · simp at hit'; rw [hit']; exact k3
  · rw [hkeep.2, k5, z3, hs1.2.1]
  · intro it' hit'
    simp at hit'
    rw [← hit']; exact k4
  · rw [v2, hsc3, h7]
  · rw [v2, hsc3, h8]
  · rw [v1.past]
    change (its' ++ [it]).map (·.beta) = _
    rw [List.map_append, ← hlen]
    congr 1
    · rw [List.eq_replicate_iff]
      exact ⟨by simp, z2⟩
    · simp [k4]

/-- A first run with a constant likelihood returns after one iteration. -/
theorem flat_first_run (hf : FlatEnv e ll) (hu : UserFns e ll lp bb hb) (hc : Configured e) (hd : Draws s.scaler.low s.scaler.high rnd)
    (hrel : Reliable e rnd) (hs : Fresh e hb s) (hpr : ∀ x ∈ rnd.prior e.nPrior, ll x = fin 0) (hN : s.nEffective < e.nPrior / e.nActive * e.nActive) (a : RunArgs)
    (hk : a.saveEvery ≠ some 0) (hT : a.nTotal ≤ (e.nPrior / e.nActive + 1) * e.nActive) (fuel n : ℕ) :
    ∃ s' its, (run e rnd fuel (n + 1) a s).2 = .ok s' ∧ Inv e ll lp bb hb s' its ∧ (∀ it ∈ its, it.logz = fin 0) ∧
      its.length = e.nPrior / e.nActive + 1 ∧ s'.warmup = false ∧ s'.nEffective = s.nEffective ∧
      (∀ it, its.getLast? = some it → it.beta = fin 1) ∧ s'.scaler.low = s.scaler.low ∧ s'.scaler.high = s.scaler.high := by
  have hi : Inv e ll lp bb hb s [] := .fresh hs
  have hsup : Supported e ll (s.priorSamples.getD (rnd.prior e.nPrior)) := by
    rw [hs.priorSamples]
    simp only [Option.getD_none]
    obtain ⟨xs, x1, x2, -⟩ := hd.prior e.nPrior
    exact supported_of hc (by rw [x1, List.length_map, x2]) fun x hx => by rw [hpr x hx]; rfl
  obtain ⟨s', its, h1, h2, h3, h4, h5, h6, h7, h8, h9, -⟩ := flat_warm_run hf hu hc hd hrel hi hs.warmup (by simp) hsup (by simpa using hN) a hk
    (by simpa using hT) fuel n
  exact ⟨s', its, h1, h2, h3, by simpa using h4, h5, h6, h7, h8, h9⟩

/-- A second run, asking for more, returns after one more iteration. -/
theorem flat_next_run (hf : FlatEnv e ll) (hu : UserFns e ll lp bb hb) (hc : Configured e) (hd : Draws s.scaler.low s.scaler.high rnd)
    (hrel : Reliable e rnd) (h : Inv e ll lp bb hb s its) (hne : its ≠ []) (hz : ∀ it ∈ its, it.logz = fin 0) (hw : s.warmup = false)
    (hb1 : ∀ it, its.getLast? = some it → it.beta = fin 1)
    (hN : s.nEffective < its.length * e.nActive) (a : RunArgs)
    (hk : a.saveEvery ≠ some 0) (hT1 : its.length * e.nActive < a.nTotal) (hT : a.nTotal ≤ (its.length + 1) * e.nActive) (fuel n : ℕ) :
    ∃ s', (run e rnd fuel (n + 1) a s).2 = .ok s' ∧ s'.t = s.t + 1 := by
  obtain ⟨ps, hps⟩ : ∃ ps, s.priorSamples = some ps := by
    cases hps : s.priorSamples with
    | none => exact absurd (h.noPrior hps) hne
    | some ps => exact ⟨ps, rfl⟩
  have h1 : runInit e rnd a s = .ok { s with nTotal := a.nTotal, nEvidence := a.nEvidence } := by
    unfold runInit
    simp only [hps]
  obtain ⟨i1, -, -⟩ := h.init hc hd h1
  have h2 : (runWarmup e rnd a s.t { s with nTotal := a.nTotal, nEvidence := a.nEvidence }).2
      = .ok { s with nTotal := a.nTotal, nEvidence := a.nEvidence } := by
    unfold runWarmup
    simp only [hw]
    rfl
  obtain ⟨s3, it, k1, k2, k3, k4, k5, k6, k7⟩ := Inv.flat_loop (s := { s with nTotal := a.nTotal, nEvidence := a.nEvidence }) hf hu hc hd hrel i1 hw hne hz hN (.inr ⟨hb1, hT1⟩) hT hk s.t fuel n
  obtain ⟨s4, h4'⟩ := k2.finalEvidence_total (rnd := rnd) hu hc hf.proper (by simp)
  refine ⟨s4, run_of_parts h1 h2 k1 h4', ?_⟩
  have := (smcStep_keep k6).2
  rcases finalEvidence_ok h4' with ⟨-, -, h⟩ | ⟨-, lw, z, -, rfl⟩
  · obtain ⟨inv, ll', bl, hbl, -, -, rfl⟩ := computeEvidence_ok h
    exact this
  · exact this

end

end Poco
