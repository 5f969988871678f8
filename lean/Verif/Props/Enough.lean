import Verif.Props.Cut

/-! How many effective samples `posterior` returns after a run: property C151. -/

namespace Poco
open F Spec Classical

/-- Two lists of iterations with the same recorded values have the same weights. -/
theorem holds_unique {d : ℕ} {B : Type} {past : Cols d B List} {H H' : List Stage} (h : Holds past H) (h' : Holds past H') : H = H' := by
  obtain ⟨a1, a2, a3⟩ := h
  obtain ⟨b1, b2, b3⟩ := h'
  rw [a1] at b1
  rw [a2] at b2
  rw [a3] at b3
  clear a1 a2 a3
  induction H generalizing H' with
  | nil =>
    cases H' with
    | nil => rfl
    | cons s H' => simp at b1
  | cons s H ih =>
    cases H' with
    | nil => simp at b1
    | cons s' H' =>
      simp only [List.map_cons, List.cons.injEq, fin_inj] at b1 b2 b3
      have e1 : s.logl = s'.logl := List.map_injective_iff.mpr (fun a b h => by simpa using h) b1.1
      rw [ih b1.2 b2.2 b3.2]
      congr 1
      cases s; cases s'
      simp_all

section
variable {d : ℕ} {B Φ : Type} {e : SamplerEnv d B Φ} {ll lp : Pt d → F} {bb : Pt d → List B} {hb : Bool} {s s' : Sampler d B Φ}
  {rnd : Rnd d Φ}

theorem relWeights_eq (H : List Stage) (ls : List ℝ) :
    relWeights H ls = (ls.map (weight H 1)).map (((ls.map (weight H 1)).sum)⁻¹ * ·) := by
  unfold relWeights
  rw [List.map_map]
  apply List.map_congr_left
  intro l _
  simp only [Function.comp, div_eq_inv_mul]

/-- C151: after `run(n_total)` has returned, `posterior(trim_importance_weights=False)` returns weights whose effective size (ESS or
USS, the one chosen as `metric`) is at least `n_total`. -/
theorem C151_all (hu : UserFns e ll lp bb hb) (hp : ProperLike ll) (hc : Configured e) (h : Session e hb s)
    (hd : Draws s.scaler.low s.scaler.high rnd) (fuel n : ℕ) (ra : RunArgs) (hrun : (run e rnd fuel n ra s).2 = .ok s')
    (us : ℕ → ℝ) (u : ℝ) (a : PostArgs) (ht : a.trim = false) (hr : a.resample = false) (hw : a.returnLogw = false)
    (hbl : a.returnBlobs = true → hb = true) :
    ∃ (out : PostOut d B) (ws : List ℝ), posterior e us u a s' = .ok out ∧ out.weights = some (ws.map fin) ∧
      ws.length = out.samples.length ∧ (∀ w ∈ ws, 0 < w) ∧ ws.sum = 1 ∧
      (ra.nTotal : ℝ) ≤ (match e.metric with | .ess => ess ws | .uss => distinct ws ws.length) := by
  obtain ⟨st, b, hst, hrect, hlast, -, hsize⟩ := C24_run_reached hu hp hc h hd fuel n ra hrun
  have hs' : Session e hb s' := .ran rnd fuel n ra h hd hrun
  obtain ⟨its, hi⟩ := hs'.inv hu hc (ll := ll) (lp := lp) (bb := bb)
  have hne' : its ≠ [] := by
    rintro rfl
    rw [hi.past] at hlast
    simp [columns] at hlast
  obtain ⟨H, all, kept, p0, p, ls, hH, hR, hall, hll, hbel, hsub, htr, hkl, hkn, hp0, hp1, hp2⟩ :=
    posterior_core hc hi hp hne' a (fun h => by rw [ht] at h; cases h) hbl
  obtain rfl := holds_unique hst hH
  obtain rfl := htr ht
  have hls' : ls = allLogl st := by
    rw [hkl] at hll
    exact List.map_injective_iff.mpr (fun a b h => by simpa using h) hll
  have hls : ls ≠ [] := by
    rintro rfl
    simp at hkl
    exact hkn hkl
  have hpos : 0 < (ls.map (weight st 1)).sum := sum_map_pos ls _ hls fun x _ => weight_pos st hR.1 1 x
  have hsum : (relWeights st ls).sum = 1 := by
    have := sum_normalized hpos.ne'
    simpa [relWeights, Function.comp_def] using this
  have e1 : posterior e us u a s' = postReturn e.resample us u a p := by
    unfold posterior
    simp only [hp0, hp1, bind, Except.bind]
  refine ⟨_, relWeights st ls, e1.trans (by simp only [postReturn, hr]; rfl), by rw [hp2]; simp [hw], ?_, ?_, hsum, ?_⟩
  · rw [hp2]
    have := congrArg List.length hkl
    simpa [relWeights] using this.symm
  · intro w hw'
    obtain ⟨l, -, rfl⟩ := List.mem_map.mp hw'
    exact div_pos (weight_pos st hR.1 1 l) hpos
  · refine hsize.trans (le_of_eq ?_)
    have hl : (relWeights st ls).length = ls.length := by simp [relWeights]
    unfold sizeAt
    cases e.metric with
    | ess =>
      simp only [essAt]
      rw [relWeights_eq, ess_scale _ (inv_ne_zero hpos.ne'), hls']
      rfl
    | uss =>
      simp only [ussAt]
      rw [hl, relWeights_eq, distinct_scale _ (inv_ne_zero hpos.ne'), hls']
      rfl

/-- C151: with trimming (the default) and `metric = "ess"`, the effective sample size of the weights returned, and so the number of
samples, is at least `ess_trim` times `n_total`. -/
theorem C151_trimmed (hu : UserFns e ll lp bb hb) (hp : ProperLike ll) (hc : Configured e) (h : Session e hb s)
    (hd : Draws s.scaler.low s.scaler.high rnd) (fuel n : ℕ) (ra : RunArgs) (hrun : (run e rnd fuel n ra s).2 = .ok s')
    (hm : e.metric = .ess) (us : ℕ → ℝ) (u : ℝ) (a : PostArgs) (ht : a.trim = true) (hr : a.resample = false) (hw : a.returnLogw = false)
    (ε : ℝ) (ha : a.essTrim = fin ε) (h0 : 0 ≤ ε) (hε : ε ≤ 1) (hbins : 1 ≤ a.binsTrim) (hbl : a.returnBlobs = true → hb = true) :
    ∃ (out : PostOut d B) (ws : List ℝ), posterior e us u a s' = .ok out ∧ out.weights = some (ws.map fin) ∧
      ws.length = out.samples.length ∧ IsWeights ws ∧ ws.sum = 1 ∧
      ε * ra.nTotal ≤ ess ws ∧ ε * ra.nTotal ≤ out.samples.length := by
  obtain ⟨st, b, hst, hrect, hlast, -, hsize⟩ := C24_run_reached hu hp hc h hd fuel n ra hrun
  have hs' : Session e hb s' := .ran rnd fuel n ra h hd hrun
  obtain ⟨its, hi⟩ := hs'.inv hu hc (ll := ll) (lp := lp) (bb := bb)
  have hne' : its ≠ [] := by
    rintro rfl
    rw [hi.past] at hlast
    simp [columns] at hlast
  obtain ⟨H, all, kept, p0, p, ls, hH, hR, hall, hll, hbel, hsub, htr, hkl, hkn, hp0, hp1, hp2⟩ :=
    posterior_core hc hi hp hne' { a with trim := false } (fun h => by cases h) hbl
  obtain ⟨_, _, _, p0', q, _, -, -, -, -, -, -, -, -, -, hq0, hq1, -⟩ :=
    posterior_core hc hi hp hne' a (fun _ => ⟨ε, ha, hε, hbins⟩) hbl
  have hq0' : postCollect { a with trim := false } s' = .ok p0' := hq0
  rw [hp0] at hq0'
  simp only [Except.ok.injEq] at hq0'
  subst hq0'
  have hpp : p0 = p := by simpa [postTrim] using hp1
  rw [← hpp] at hp2
  obtain rfl := holds_unique hst hH
  obtain rfl := htr rfl
  have hls' : ls = allLogl st := by
    rw [hkl] at hll
    exact List.map_injective_iff.mpr (fun a b h => by simpa using h) hll
  have hls : ls ≠ [] := by
    rintro rfl
    simp at hkl
    exact hkn hkl
  have hpos : 0 < (ls.map (weight st 1)).sum := sum_map_pos ls _ hls fun x _ => weight_pos st hR.1 1 x
  have hsum : (relWeights st ls).sum = 1 := by
    have := sum_normalized hpos.ne'
    simpa [relWeights, Function.comp_def] using this
  have hlen : (relWeights st ls).length = p0.samples.length := by
    have := congrArg List.length hkl
    rw [hp2]
    simpa [relWeights] using this.symm
  have hW : IsWeights (relWeights st ls) := by
    refine ⟨fun x hx => ?_, by rw [hsum]; norm_num⟩
    obtain ⟨l, -, rfl⟩ := List.mem_map.mp hx
    exact div_nonneg (weight_pos st hR.1 1 l).le hpos.le
  have hpw : p0.weights = (relWeights st ls).map fin := by rw [hp2]
  have hess : (ra.nTotal : ℝ) ≤ ess (relWeights st ls) := by
    refine hsize.trans (le_of_eq ?_)
    unfold sizeAt
    rw [hm]
    simp only [essAt]
    rw [relWeights_eq, ess_scale _ (inv_ne_zero hpos.ne'), hls']
    rfl
  obtain ⟨tr, k1, K, -, k3, k4, k5, k6, k7, -⟩ := C05_trim (List.range p0.samples.length) (relWeights st ls) hW (by simp [hlen]) ε hε
    a.binsTrim hbins
  have hq2 := hq1
  unfold postTrim at hq1
  rw [if_pos ht, hpw, ha, k1] at hq1
  obtain ⟨_, g0, hq1⟩ := bind_ok hq1
  simp only [Except.ok.injEq] at g0
  subst g0
  obtain ⟨xs, g1, hq1⟩ := bind_ok hq1
  obtain ⟨_, -, hq1⟩ := bind_ok hq1
  obtain ⟨_, -, hq1⟩ := bind_ok hq1
  obtain ⟨_, -, hq1⟩ := bind_ok hq1
  obtain ⟨_, -, hq1⟩ := bind_ok hq1
  simp only [pure, Except.pure, Except.ok.injEq] at hq1
  have e1 : posterior e us u a s' = postReturn e.resample us u a q := by
    unfold posterior
    rw [show postCollect a s' = .ok p0 from hp0]
    simp only [bind, Except.bind, hq2]
  have hlen1 : (K.map fun q => q.2 / (K.map (·.2)).sum).length = xs.length := by
    have := congrArg List.length (gather_map_get g1 fun _ => 0)
    rw [k4] at this
    simpa using this.symm
  have hK : K.map (fun q => q.2 / (K.map (·.2)).sum) = (K.map (·.2)).map (((K.map (·.2)).sum)⁻¹ * ·) := by
    rw [List.map_map]
    apply List.map_congr_left
    intro l _
    simp only [Function.comp, div_eq_inv_mul]
  have hE : ε * ra.nTotal ≤ ess (K.map fun q => q.2 / (K.map (·.2)).sum) := by
    rw [hK, ess_scale _ (inv_ne_zero k3.2.ne')]
    exact (mul_le_mul_of_nonneg_left hess h0).trans k7
  have hKW : IsWeights (K.map fun q => q.2 / (K.map (·.2)).sum) := by
    refine ⟨fun x hx => ?_, by rw [k6]; norm_num⟩
    obtain ⟨l, hl, rfl⟩ := List.mem_map.mp hx
    exact div_nonneg (k3.1 _ (List.mem_map_of_mem (f := fun q : ℕ × ℝ => q.2) hl)) k3.2.le
  refine ⟨_, K.map fun q => q.2 / (K.map (·.2)).sum, e1.trans (by simp only [postReturn, hr]; rfl), ?_, ?_, hKW, k6, hE, ?_⟩
  · rw [← hq1]
    simp [k5, hw]
  · rw [← hq1]
    exact hlen1
  · rw [← hq1]
    have := hE.trans (ess_le_length hKW)
    rwa [hlen1] at this

end
end Poco

namespace Poco.Demo
open F Spec Classical

/-- The sampler of `env114` with the ESS as metric. -/
noncomputable def env151 : SamplerEnv 2 Unit Unit := { env114 with metric := .ess }

theorem user151 : UserFns env151 step114 (fun _ => fin 0) (fun _ => [()]) false := ⟨user114.1, user114.2, user114.3⟩

theorem fresh151 : Fresh env151 false start := by
  constructor <;> try rfl
  · exact (fresh true).bounds
  · intro h; cases h

/-- A run with `n_total = 100` and a likelihood that is not constant, read with the default arguments: at least 99 effective samples. -/
example : ∃ fuel s', (run env151 rnd fuel (iterationBound 0 1 0.5 true 2 start.nEffective 100 + 1) ⟨100, 0, none⟩ start).2 = .ok s' ∧
    (∃ (out : PostOut 2 Unit) (ws : List ℝ), posterior env151 (fun _ => 0) 0 PostArgs.default s' = .ok out ∧
      out.weights = some (ws.map fin) ∧ 99 ≤ ess ws ∧ 99 ≤ out.samples.length) ∧
    ∃ (out : PostOut 2 Unit) (ws : List ℝ), posterior env151 (fun _ => 0) 0 { PostArgs.default with trim := false } s' = .ok out ∧
      out.weights = some (ws.map fin) ∧ 100 ≤ ess ws := by
  obtain ⟨fuel, h⟩ := C114_ends env151 step114 (fun _ => fin 0) (fun _ => [()]) false user151 (configured true) proper114 start
    (.fresh fresh151) 0 1 (fun x _ => .inr (bounded114 _)) 0.5 rfl
    (by norm_num) ⟨100, 0, none⟩ (by simp) rnd draws ⟨(reliable true).geo, (reliable true).flow, (reliable true).inv, (reliable true).chol,
      (reliable true).dim, (reliable true).freq, (reliable true).ratio, (reliable true).mult, (reliable true).syst⟩ (fun _ i hi => by
      refine ⟨pt fun _ => ((i * 2 : ℕ) : ℝ), ?_, ?_⟩
      · have hi' : i < 2 := by simpa [env, env114, env151] using hi
        have : i = 0 ∨ i = 1 := by omega
        rcases this with rfl | rfl <;> simp [start, rnd, env, env114, env151, List.range_succ]
      · obtain ⟨l, h, -⟩ := bounded114 (pt fun _ => ((i * 2 : ℕ) : ℝ))
        rw [h]; rfl) (fun h => by cases h)
  obtain ⟨s', h1⟩ := h fuel le_rfl
  obtain ⟨out, ws, k1, k2, -, -, -, k3, k4⟩ := C151_trimmed user151 proper114 (configured true) (.fresh fresh151) draws fuel _ _ h1 rfl
    (fun _ => 0) 0 PostArgs.default rfl rfl rfl 0.99 rfl (by norm_num) (by norm_num) (by simp [PostArgs.default]) (fun h => by cases h)
  obtain ⟨out', ws', g1, g2, -, -, -, g3⟩ := C151_all user151 proper114 (configured true) (.fresh fresh151) draws fuel _ _ h1
    (fun _ => 0) 0 { PostArgs.default with trim := false } rfl rfl rfl (fun h => by cases h)
  refine ⟨fuel, s', h1, ⟨out, ws, k1, k2, ?_, ?_⟩, out', ws', g1, g2, ?_⟩
  · norm_num at k3; exact k3
  · norm_num at k4; exact_mod_cast k4
  · have : env151.metric = .ess := rfl
    rw [this] at g3
    simpa using g3

end Poco.Demo
