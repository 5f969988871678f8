import Verif.Lemmas.Fuel
import Verif.Lemmas.Spread
import Verif.Props.Demo
import Verif.Props.Starting

/-! C114: with a bounded likelihood a run ends, whatever the draws. -/

namespace Poco.Spec

/-- The number of stored iterations from which the dynamic target no longer grows. -/
noncomputable def settled (lo hi r : ℝ) : ℕ := ⌈Real.exp (hi - lo) / (2 * (1 - 0.95 * r))⌉₊

/-- The largest target the dynamic option can reach: it is multiplied by at most `n_active` in each of the first `settled` iterations. -/
noncomputable def largestTarget (lo hi r : ℝ) (dynamic : Bool) (nActive nEffective : ℕ) : ℕ :=
  if dynamic then nEffective * nActive ^ settled lo hi r else nEffective

/-- The number of iterations of `n_active` particles whose guaranteed share exceeds both the largest target and `n_total`. -/
noncomputable def iterationBound (lo hi r : ℝ) (dynamic : Bool) (nActive nEffective nTotal : ℕ) : ℕ :=
  ⌊(max (largestTarget lo hi r dynamic nActive nEffective) nTotal : ℝ) / (leastShare lo hi * nActive)⌋₊ + 1

end Poco.Spec

namespace Poco
open F Spec

variable {d : ℕ} {B Φ : Type}

theorem dynamicNEff_upper {k n n' : ℕ} {r u : ℝ} (h1 : 1 ≤ u) (h2 : u ≤ k) (h : dynamicNEff k n (fin r) (fin u) = .ok n') :
    n' ≤ n * k ∧ (0.95 * r * k ≤ u → n' ≤ n) := by
  have hk : (1 : ℝ) ≤ k := h1.trans h2
  have hk' : 1 ≤ k := by exact_mod_cast hk
  have hnk : n ≤ n * k := Nat.le_mul_of_pos_right n hk'
  have hn : (0 : ℝ) ≤ n := Nat.cast_nonneg n
  have hup : ⌊u / (k : ℝ) * n⌋₊ ≤ n := by
    apply Nat.floor_le_of_le
    have : u / k ≤ 1 := by rwa [div_le_one (by linarith)]
    nlinarith
  unfold dynamicNEff at h
  split_ifs at h with c1 c2
  · simp only [F.ofNat, fin_mul, F.fin_lt] at c1
    simp only [F.ofNat, fin_div _ _ (by linarith : u ≠ 0), fin_mul, pyInt, Except.ok.injEq] at h
    subst h
    refine ⟨Nat.floor_le_of_le ?_, fun g => ?_⟩
    · have : (k : ℝ) / u ≤ k := div_le_self (by linarith) h1
      push_cast
      nlinarith
    · exfalso
      have : (k : ℝ) * (0.95 * r) = 0.95 * r * k := by ring
      linarith
  · simp only [F.ofNat, fin_div _ _ (by linarith : (k : ℝ) ≠ 0), fin_mul, pyInt, Except.ok.injEq] at h
    subst h
    exact ⟨hup.trans hnk, fun _ => hup⟩
  · simp only [Except.ok.injEq] at h
    subst h
    exact ⟨hnk, fun _ => le_rfl⟩

/-- How the target changes in one iteration. -/
theorem reweight_growth {e : SamplerEnv d B Φ} {s : Sampler d B Φ} {h : List Stage} {k : ℕ} (hr : Rect h k)
    (hh : Holds s.particles.past h) (ha : 1 ≤ e.nActive) {r : ℝ} (hdr : e.dynamicRatio = fin r) {β : ℝ} {w' : List F} {n' : ℕ}
    (hok : reweightWeights e s (fin β) = .ok (w', n')) :
    (e.dynamic = false → n' = s.nEffective) ∧ n' ≤ s.nEffective * e.nActive ∧
      (0.95 * r * e.nActive ≤ distinct (weights h β) e.nActive → n' ≤ s.nEffective) := by
  obtain ⟨c, hc, hwt⟩ := weightsAt_fin s.particles.past h k hr hh β
  set w := weights h β with hwdef
  have hw : IsWeights w := weights_isWeights hr β
  have hn : normalize ((w.map (c * ·)).map fin) = (w.map (· / w.sum)).map fin := by
    rw [normalize_fin _ (hw.scale hc).2.ne', list_sum_map_mul]
    congr 1
    rw [List.map_map]
    apply List.map_congr_left
    intro x _
    simp only [Function.comp]
    rw [mul_div_mul_left _ _ hc.ne']
  have hw1 : (w.map (· / w.sum)).sum = 1 := sum_normalized hw.2.ne'
  have hus : (uniqueSampleSize ((w.map (· / w.sum)).map fin) (some e.nActive)).2 = fin (distinct w e.nActive) := by
    rw [uniqueSampleSize_fin _ (by rw [hw1]; norm_num)]
    simp only
    rw [hw1]
    simp [Function.comp_def, distinct]
  simp only [reweightWeights, hwt, bind, Except.bind, pure, Except.pure, hn] at hok
  cases hd : e.dynamic with
  | false =>
    rw [hd] at hok
    simp only [Bool.false_eq_true, if_false, Except.ok.injEq, Prod.mk.injEq] at hok
    obtain ⟨-, rfl⟩ := hok
    exact ⟨fun _ => rfl, Nat.le_mul_of_pos_right _ ha, fun _ => le_rfl⟩
  | true =>
    rw [hd] at hok
    simp only [if_true, hus, hdr] at hok
    cases hx : dynamicNEff e.nActive s.nEffective (fin r) (fin (distinct w e.nActive)) with
    | error x => rw [hx] at hok; cases hok
    | ok m =>
      rw [hx] at hok
      simp only [Except.ok.injEq, Prod.mk.injEq] at hok
      obtain ⟨-, rfl⟩ := hok
      exact ⟨by simp, dynamicNEff_upper (distinct_ge_one hw ha) (uss_le_k w hw e.nActive) hx⟩

section
variable {e : SamplerEnv d B Φ} {ll lp : Pt d → F} {bb : Pt d → List B} {hb : Bool} {s : Sampler d B Φ} {rnd : Rnd d Φ}
  {its : List (Iter d (List B))} {lo hi : ℝ}

/-- Inside the prior's bounds the log-likelihood is `-inf` or lies in `[lo, hi]`. -/
def Spec.Bounded (low high : Fin d → F) (ll : Pt d → F) (lo hi : ℝ) : Prop :=
  ∀ x, StrictlyInside low high x → ll (pt x) = ninf ∨ ∃ l, ll (pt x) = fin l ∧ lo ≤ l ∧ l ≤ hi

theorem Inv.confined (h : Inv e ll lp bb hb s its) (hne : its ≠ []) (hp : ProperLike ll) (hbd : Bounded s.scaler.low s.scaler.high ll lo hi) {H : List Stage}
    (hH : Holds s.particles.past H) : Confined lo hi H := by
  have hok : s.scaler.Ok := by
    cases hps : s.priorSamples with
    | none => exact absurd (h.noPrior hps) hne
    | some ps => exact (h.prior ps hps).1
  obtain ⟨G, Fw, J, g1, -, -, g4, -⟩ := hok.real
  obtain ⟨bs, b1, -, b3⟩ := h.betas
  have hbeta : its.map (·.beta) = H.map (fun s => fin s.beta) := by
    have := hH.2.1
    rw [h.past] at this
    exact this
  have hlogl : (its.map fun it => it.logl) = H.map (fun s => s.logl.map fin) := by
    have := hH.1
    rw [h.past] at this
    exact this
  intro st hst
  constructor
  · have : fin st.beta ∈ H.map (fun s => fin s.beta) := List.mem_map_of_mem hst
    rw [← hbeta, b1] at this
    obtain ⟨b, h1, h2⟩ := List.mem_map.mp this
    simp only [F.fin.injEq] at h2
    subst h2
    exact b3 _ h1
  · intro l hl
    have : st.logl.map fin ∈ H.map (fun s => s.logl.map fin) := List.mem_map_of_mem hst
    rw [← hlogl] at this
    obtain ⟨it, h1, h2⟩ := List.mem_map.mp this
    obtain ⟨rows, r1, r2, r3, -⟩ := h.rows it h1
    have hm : fin l ∈ st.logl.map fin := List.mem_map_of_mem hl
    rw [← h2, r2.logl] at hm
    obtain ⟨r, hr, hrl⟩ := List.mem_map.mp hm
    obtain ⟨⟨q1, -, q3, -⟩, ⟨u, hu⟩, -⟩ := r3 r hr
    rw [hu] at q1
    have := g1 u
    change s.scaler.inverseRow (pt u) = _ at this
    rw [this] at q1
    simp only [Except.ok.injEq, Prod.mk.injEq] at q1
    rw [q3] at hrl
    rcases hbd (G u) (g4 u) with hn | ⟨l', hn, h3, h4⟩
    · change ll (fun i => fin (G u i)) = _ at hn
      rw [q1.1, hrl] at hn; cases hn
    · change ll (fun i => fin (G u i)) = _ at hn
      rw [q1.1, hrl] at hn
      simp only [F.fin.injEq] at hn
      subst hn
      exact ⟨h3, h4⟩

/-- The test at the top of the loop, once the temperature is 1 and enough is stored. -/
theorem Inv.notTermination_false (hc : Configured e) (hp : ProperLike ll) (h : Inv e ll lp bb hb s its) (hne : its ≠ [])
    (hbd : Bounded s.scaler.low s.scaler.high ll lo hi) (h1 : ∀ it, its.getLast? = some it → it.beta = fin 1)
    (hN : (s.nTotal : ℝ) ≤ leastShare lo hi * ((its.length * e.nActive : ℕ) : ℝ)) : notTermination e s = .ok false := by
  obtain ⟨H, b, z, hH, hR, -, -, -, ⟨c, hcur, hlast, -⟩, hlen⟩ := h.stages hc hp hne
  have hsz := size_ge hR (h.confined hne hp hbd hH) e.metric (β := 1) ⟨zero_le_one, le_rfl⟩
  rw [hlen] at hsz
  unfold notTermination
  simp only [essAt_fin _ H _ hR hH, hcur, orErr, bind, Except.bind, pure, Except.pure, h1 _ hlast, F.ofNat, fin_sub, ge_iff_le,
    F.fin_le, F.fin_lt, Except.ok.injEq, Bool.or_eq_false_iff, decide_eq_false_iff_not]
  exact ⟨by norm_num, by push Not; linarith⟩

/-- The temperature of an iteration once the guaranteed effective size exceeds the target. -/
theorem Inv.smcStep_one (hu : UserFns e ll lp bb hb) (hc : Configured e) (hd : Draws s.scaler.low s.scaler.high rnd) (hw : s.warmup = false)
    (hp : ProperLike ll) (h : Inv e ll lp bb hb s its) (hne : its ≠ [])
    (hbd : Bounded s.scaler.low s.scaler.high ll lo hi) (hN : (s.nEffective : ℝ) < leastShare lo hi * ((its.length * e.nActive : ℕ) : ℝ))
    {fuel : ℕ} {s' : Sampler d B Φ} (hs : smcStep e rnd fuel s = .ok s') {it : Iter d (List B)} (hi' : Inv e ll lp bb hb s' (its ++ [it])) :
    it.beta = fin 1 := by
  obtain ⟨H, b, z, hH, hR, hb1, hb0, hl, ⟨c, hcur, hlast, hcb⟩, hlen⟩ := h.stages hc hp hne
  have hcf := h.confined hne hp hbd hH
  have hsz := fun β hβ => size_ge hR hcf e.metric (β := β) hβ
  rw [hlen] at hsz
  obtain ⟨st, hs1, hs2⟩ := Option.map_eq_some_iff.mp hl
  simp only [Prod.mk.injEq] at hs2
  have l1 : getAt s.particles.past.beta (-1) = .ok (fin b) := by
    apply getAt_neg_one
    rw [hH.2.1, List.getLast?_map, hs1]; simp [hs2.1]
  have hbeta : chooseBeta s.particles.past e.metric (F.ofNat s.nEffective) fuel = .ok (fin 1, fin (Real.log (totalWeight H 1 / (allLogl H).length)), fin (sizeAt e.metric H 1)) := by
    simp only [chooseBeta, l1, essAt_fin _ H _ hR hH, computeLogwLogz_fin _ H _ hR hH, bind, Except.bind, pure,
      Except.pure, ge_iff_le, F.fin_le, F.ofNat]
    have q1 := hsz b ⟨hb0, hb1⟩
    have q2 := hsz 1 ⟨zero_le_one, le_rfl⟩
    rw [if_neg (by push Not; linarith), if_pos (by linarith)]
  obtain ⟨c', s1, c1, s2, c2, s3, c3, h0, h1, h2, h3, h4, rfl⟩ := smcStep_ok hs
  obtain ⟨nEff, beta, logz, ess, w, tr, g1, -, -, g, rfl⟩ := reweight_ok h1
  rw [hbeta] at g1
  simp only [Except.ok.injEq, Prod.mk.injEq] at g1
  obtain ⟨rfl, rfl, rfl⟩ := g1
  obtain ⟨c4, c5, r, nEff', fl, fu, ug, tg, -, -, -, -, hs'⟩ := smcStep_shape hs
  have hcb : hb = false → c'.it.blobs = none := by
    intro hf
    have : c' = c := by rw [hcur] at h0; simpa using h0.symm
    subst this
    obtain ⟨rows, -, r2, -⟩ := h.rows c'.it (List.mem_of_getLast? hlast)
    rw [r2.blobs, hf]; rfl
  rw [h.past, h.blobs hne] at g
  obtain ⟨⟨rows1, q0, q1, q2⟩, qw, -, -, -, -, -, -, qb, qz, -⟩ := gatherCur_ok hne h.rows hcb g
  have t1b : s2.haveBlobs = hb := by
    rcases train_ok h2 with ⟨-, flow, g, rfl⟩ | ⟨-, g, rfl⟩ <;> exact h.blobs hne
  obtain ⟨⟨rows2, -, p2, p3⟩, -, -, -, -, -, -, -, pb, pz, -⟩ := resampleStep_ok t1b q1 q2 h3
  obtain ⟨ws, k, r', -, -, -, h5⟩ := mutate_ok h4
  simp only [writeBack, Prod.mk.injEq] at h5
  obtain ⟨rfl, rfl⟩ := h5
  have hcur' := hi'.cur
  rw [List.getLast?_append] at hcur'
  simp only [Option.map_some, List.getLast?_singleton, Option.some_or, Option.some.injEq] at hcur'
  rw [← hcur']
  simp only [pb, qb]

/-- How the target changes in an iteration. -/
theorem Inv.smcStep_target (hc : Configured e) (hp : ProperLike ll) (h : Inv e ll lp bb hb s its) (hne : its ≠ [])
    (hbd : Bounded s.scaler.low s.scaler.high ll lo hi) {r : ℝ} (hdr : e.dynamicRatio = fin r) (hr : e.dynamic = true → 0.95 * r < 1)
    {fuel : ℕ} {s' : Sampler d B Φ} (hs : smcStep e rnd fuel s = .ok s') :
    (e.dynamic = false → s'.nEffective = s.nEffective) ∧ s'.nEffective ≤ s.nEffective * e.nActive ∧
      (settled lo hi r ≤ its.length → s'.nEffective ≤ s.nEffective) := by
  obtain ⟨H, b, z, hH, hR, hb1, hb0, hl, -, hlen⟩ := h.stages hc hp hne
  have hcf := h.confined hne hp hbd hH
  obtain ⟨c', s1, c1, s2, c2, s3, c3, h0, h1, h2, h3, h4, rfl⟩ := smcStep_ok hs
  obtain ⟨nEff, beta, logz, ess, w, tr, g1, g2, -, g, rfl⟩ := reweight_ok h1
  obtain ⟨st, hs1, hs2⟩ := Option.map_eq_some_iff.mp hl
  simp only [Prod.mk.injEq] at hs2
  have l0 : s.particles.past.beta.getLast? = some (fin b) := by rw [hH.2.1, List.getLast?_map, hs1]; simp [hs2.1]
  obtain ⟨β, rfl, hβ1, hβ2⟩ := C21_beta_step s.particles.past e.metric _ fuel b hb1 l0 _ _ _ g1
  have hn : s3.nEffective = nEff := by
    obtain ⟨ws, k, r, -, -, -, h5⟩ := mutate_ok h4
    simp only [writeBack, Prod.mk.injEq] at h5
    obtain ⟨rfl, rfl⟩ := h5
    rcases train_ok h2 with ⟨-, flow, g, rfl⟩ | ⟨-, g, rfl⟩ <;> rfl
  obtain ⟨k1, k2, k3⟩ := reweight_growth (s := { s with t := s.t + 1 }) hR hH hc.1 hdr g2
  change (_ → s3.nEffective = _) ∧ s3.nEffective ≤ _ ∧ (_ → s3.nEffective ≤ _)
  rw [hn]
  refine ⟨k1, k2, fun hL => ?_⟩
  cases hdyn : e.dynamic with
  | false => rw [k1 hdyn]
  | true =>
    refine k3 (le_trans ?_ (distinct_ge (weights_isWeights hR β) (weights_ratio hR.1 hcf ⟨hb0.trans hβ1, hβ2⟩) e.nActive))
    have hwl : (weights H β).length = its.length * e.nActive := by
      unfold weights; rw [List.length_map, hR.length, hlen]
    have hr1 := hr hdyn
    rw [hwl]
    have hk : (0 : ℝ) < e.nActive := by exact_mod_cast hc.1
    have hL0 : (0 : ℝ) < its.length := by exact_mod_cast List.length_pos_iff.mpr hne
    have hL' : Real.exp (hi - lo) / (2 * (1 - 0.95 * r)) ≤ its.length := Nat.ceil_le.mp hL
    rw [div_le_iff₀ (by linarith)] at hL'
    have : (e.nActive : ℝ) ^ 2 * Real.exp (hi - lo) / (2 * ((its.length * e.nActive : ℕ) : ℝ)) ≤ (1 - 0.95 * r) * e.nActive := by
      push_cast
      rw [div_le_iff₀ (by positivity)]
      nlinarith [mul_le_mul_of_nonneg_left hL' (by positivity : (0 : ℝ) ≤ e.nActive ^ 2)]
    linarith

/-- The main loop ends. -/
theorem Inv.smcLoop_ends (hu : UserFns e ll lp bb hb) (hc : Configured e) (hrel : Reliable e rnd) (hp : ProperLike ll)
    {k : Option ℕ} (hk : k ≠ some 0) (t0 : ℕ) {r : ℝ} (hdr : e.dynamicRatio = fin r) (hr : e.dynamic = true → 0.95 * r < 1)
    (E T N : ℕ) (hT1 : (E : ℝ) < leastShare lo hi * ((T * e.nActive : ℕ) : ℝ)) (hT2 : (N : ℝ) ≤ leastShare lo hi * ((T * e.nActive : ℕ) : ℝ)) (n : ℕ) :
    ∀ (s : Sampler d B Φ) (its : List (Iter d (List B))),
    Draws s.scaler.low s.scaler.high rnd → s.warmup = false → Inv e ll lp bb hb s its → its ≠ [] → Bounded s.scaler.low s.scaler.high ll lo hi →
    s.nTotal = N → (if e.dynamic then s.nEffective * e.nActive ^ (settled lo hi r - its.length) else s.nEffective) ≤ E →
    ((T + 1 ≤ its.length + n ∧ 1 ≤ n) ∨ (T ≤ its.length ∧ ∀ it, its.getLast? = some it → it.beta = fin 1)) →
    ∃ fuel₀, ∀ fuel, fuel₀ ≤ fuel → ∃ s', (smcLoop e rnd fuel k t0 n s).2 = .ok s' := by
  have hshare := leastShare_pos lo hi
  have hmono : ∀ L : ℕ, T ≤ L → leastShare lo hi * ((T * e.nActive : ℕ) : ℝ) ≤ leastShare lo hi * ((L * e.nActive : ℕ) : ℝ) := by
    intro L hL
    refine mul_le_mul_of_nonneg_left ?_ hshare.le
    exact_mod_cast Nat.mul_le_mul_right _ hL
  induction n with
  | zero =>
    intro s its hd hw h hne hbd hN hE hcase
    rcases hcase with ⟨-, hcon⟩ | ⟨hL, h1⟩
    · omega
    · refine ⟨0, fun fuel _ => ⟨s, ?_⟩⟩
      have := h.notTermination_false hc hp hne hbd h1 (by rw [hN]; exact hT2.trans (hmono _ hL))
      unfold smcLoop
      simp only [this]
  | succ n ih =>
    intro s its hd hw h hne hbd hN hE hcase
    obtain ⟨v, hv⟩ := h.notTermination_total hc hp hne
    cases v with
    | false =>
      refine ⟨0, fun fuel _ => ⟨s, ?_⟩⟩
      unfold smcLoop
      simp only [hv]
    | true =>
      rcases hcase with ⟨hcase, -⟩ | ⟨hL, h1⟩
      swap
      · have := h.notTermination_false hc hp hne hbd h1 (by rw [hN]; exact hT2.trans (hmono _ hL))
        rw [hv] at this
        cases this
      obtain ⟨f0, hf0⟩ := h.smcStep_total hu hc hrel hp hne
      obtain ⟨s', hs'⟩ := hf0 f0 le_rfl
      obtain ⟨it, v1, v2⟩ := h.smc hu hc hd hw hs'
      obtain ⟨g1, g2, g3⟩ := h.smcStep_target hc hp hne hbd hdr hr hs'
      obtain ⟨c, c3, rr, nEff, fl, fu, ug, tg, -, -, -, -, hsh⟩ := smcStep_shape hs'
      have hE0 : s.nEffective ≤ E := by
        refine le_trans ?_ hE
        split_ifs
        · exact Nat.le_mul_of_pos_right _ (Nat.pow_pos hc.1)
        · exact le_rfl
      have hE' : (if e.dynamic then s'.nEffective * e.nActive ^ (settled lo hi r - (its ++ [it]).length) else s'.nEffective) ≤ E := by
        refine le_trans ?_ hE
        cases hdyn : e.dynamic with
        | false => simp only [Bool.false_eq_true, if_false]; rw [g1 hdyn]
        | true =>
          simp only [if_true, List.length_append, List.length_singleton]
          rcases Nat.lt_or_ge its.length (settled lo hi r) with hlt | hge
          · obtain ⟨q, hq⟩ : ∃ q, settled lo hi r - its.length = q + 1 := ⟨settled lo hi r - its.length - 1, by omega⟩
            rw [show settled lo hi r - (its.length + 1) = q by omega, hq, pow_succ]
            calc s'.nEffective * e.nActive ^ q ≤ s.nEffective * e.nActive * e.nActive ^ q := Nat.mul_le_mul_right _ g2
              _ = s.nEffective * (e.nActive ^ q * e.nActive) := by ring
          · rw [show settled lo hi r - (its.length + 1) = 0 by omega, show settled lo hi r - its.length = 0 by omega]
            simpa using g3 hge
      obtain ⟨f1, hf1⟩ := ih s' (its ++ [it]) (by rw [v2]; exact hd) ((smcStep_keep hs').1.trans hw) v1 (by simp) (by rw [v2]; exact hbd)
        (by rw [hsh]; exact hN) hE' (by
          rcases Nat.lt_or_ge its.length T with hlt | hge
          · left
            rw [List.length_append, List.length_singleton]
            omega
          · right
            refine ⟨by rw [List.length_append]; omega, fun it' hit' => ?_⟩
            simp at hit'
            rw [← hit']
            refine h.smcStep_one hu hc hd hw hp hne hbd ?_ hs' v1
            have : (s.nEffective : ℝ) ≤ E := by exact_mod_cast hE0
            linarith [hmono _ hge])
      refine ⟨max f0 f1, fun fuel hfu => ?_⟩
      obtain ⟨s2, hs2⟩ := hf1 fuel (le_trans (le_max_right _ _) hfu)
      refine ⟨s2, ?_⟩
      unfold smcLoop
      simp only [hv]
      exact andThen_of_ok (save_total hk t0 s) (andThen_of_ok (t := Trace.lift _) (smcStep_fuel (le_trans (le_max_left _ _) hfu) hs') hs2)

end

/-! ### C114 -/

theorem enough_iterations (lo hi r : ℝ) (dyn : Bool) {k : ℕ} (hk : 0 < k) (nEff N : ℕ) :
    let T := iterationBound lo hi r dyn k nEff N
    (largestTarget lo hi r dyn k nEff : ℝ) < leastShare lo hi * ((T * k : ℕ) : ℝ) ∧ (N : ℝ) ≤ leastShare lo hi * ((T * k : ℕ) : ℝ) := by
  intro T
  have hs := leastShare_pos lo hi
  have hk' : (0 : ℝ) < k := by exact_mod_cast hk
  have hlt : (max (largestTarget lo hi r dyn k nEff) N : ℝ) / (leastShare lo hi * k) < T := by
    have := Nat.lt_floor_add_one ((max (largestTarget lo hi r dyn k nEff) N : ℝ) / (leastShare lo hi * k))
    simpa [T, iterationBound] using this
  rw [div_lt_iff₀ (by positivity)] at hlt
  push_cast
  have e1 : (T : ℝ) * (leastShare lo hi * k) = leastShare lo hi * (T * k) := by ring
  rw [e1, max_lt_iff] at hlt
  exact ⟨hlt.1, hlt.2.le⟩

/-- **C114**: a run ends.  If inside the prior's bounds the log-likelihood is -inf or in `[lo, hi]`, then, under the conditions under which a run does not raise (C75), the run has
returned after at most `iterationBound + 1` iterations of the main loop, a number that depends on the bounds, the settings, the target effective size and `n_total`, not on any draw, any
flow or what the MCMC steps achieve. -/
theorem C114_ends (e : SamplerEnv d B Φ) (ll lp : Pt d → F) (bb : Pt d → List B) (hb : Bool) (hu : UserFns e ll lp bb hb)
    (hc : Configured e) (hp : ProperLike ll) (s : Sampler d B Φ) (hs : Session e hb s) (lo hi : ℝ) (hbd : Bounded s.scaler.low s.scaler.high ll lo hi)
    (r : ℝ) (hdr : e.dynamicRatio = fin r) (hr : e.dynamic = true → 0.95 * r < 1) (a : RunArgs) (hk : a.saveEvery ≠ some 0)
    (rnd : Rnd d Φ) (hd : Draws s.scaler.low s.scaler.high rnd) (hrel : Reliable e rnd)
    (hsup : s.warmup = true → Supported e ll (s.priorSamples.getD (rnd.prior e.nPrior)))
    (hne : s.warmup = false → s.particles.past.x ≠ []) :
    ∃ fuel₀, ∀ fuel, fuel₀ ≤ fuel → ∃ s', (run e rnd fuel (iterationBound lo hi r e.dynamic e.nActive s.nEffective a.nTotal + 1) a s).2 = .ok s' := by
  obtain ⟨its, hI⟩ := hs.inv hu hc (ll := ll) (lp := lp) (bb := bb)
  obtain ⟨s1, s2, its', h1, h2, h3, h4, h5, h6, h7, h8, -⟩ := hI.start_total hu hc hd a hk hsup (fun hw hcon => hne hw (by rw [hI.past, hcon]; rfl))
  have hd2 : Draws s2.scaler.low s2.scaler.high rnd := by rw [h7, h8]; exact hd
  have hbd2 : Bounded s2.scaler.low s2.scaler.high ll lo hi := by rw [h7, h8]; exact hbd
  have hn : s2.nTotal = a.nTotal ∧ s2.nEffective = s.nEffective := by
    have k1 : s1.nTotal = a.nTotal ∧ s1.nEffective = s.nEffective := by
      rcases runInit_ok h1 with ⟨-, rfl⟩ | ⟨-, sc, -, rfl⟩ <;> exact ⟨rfl, rfl⟩
    exact (TraceP.runWarmup (e := e) (rnd := rnd) (P := fun q => q.nTotal = a.nTotal ∧ q.nEffective = s.nEffective)
      (fun s s' i _ hs hw => by obtain ⟨b0, hb, b, -, -, rfl⟩ := warmupStep_shape hw; exact hs) (fun s hs => hs) a s.t s1 k1).2 s2 h2
  obtain ⟨q1, q2⟩ := enough_iterations lo hi r e.dynamic hc.1 s.nEffective a.nTotal
  obtain ⟨f0, hf0⟩ := Inv.smcLoop_ends (rnd := rnd) (k := a.saveEvery) (lo := lo) (hi := hi) hu hc hrel hp hk s.t hdr hr _ _ a.nTotal q1 q2
    (iterationBound lo hi r e.dynamic e.nActive s.nEffective a.nTotal + 1) s2 its' hd2 h6 h3 h4 hbd2 hn.1 (by
      rw [hn.2]
      unfold largestTarget
      split_ifs
      · exact Nat.mul_le_mul_left _ (Nat.pow_le_pow_right hc.1 (by omega))
      · exact le_rfl) (.inl ⟨by omega, by omega⟩)
  refine ⟨f0, fun fuel hfu => ?_⟩
  obtain ⟨s3, h3'⟩ := hf0 fuel hfu
  have hm := ((Along.smcLoop fuel a.saveEvery s.t _ s2 h6).1.to_end s3 h3').1
  obtain ⟨more, v1, -⟩ := h3.moves hu hc hd2 hm
  obtain ⟨s4, h4'⟩ := v1.finalEvidence_total (rnd := rnd) hu hc hp (by simp [h4])
  refine ⟨s4, ?_⟩
  unfold run
  dsimp only
  exact andThen_of_ok (t := Trace.lift _) h1 (andThen_of_ok h2 (andThen_of_ok h3' (andThen_of_ok (t := Trace.lift _) h4' rfl)))

/-- C114 for samplers made by the constructor, in one sentence: there is a number of iterations within which `run` returns, whatever the draws. -/
theorem C114_constructed (i : InitArgs) (hsn : Sensible i) (c : Config) (hcon : construct i = .ok c) (e : SamplerEnv d B Φ) (ll lp : Pt d → F) (bb : Pt d → List B) (hb : Bool)
    (hu : UserFns (c.env e) ll lp bb hb) (hc : Configured (c.env e)) (hp : ProperLike ll) (s : Sampler d B Φ) (hs : Session (c.env e) hb s) (lo hi : ℝ)
    (hbd : Bounded s.scaler.low s.scaler.high ll lo hi) (a : RunArgs) (hk : a.saveEvery ≠ some 0) :
    ∃ n, ∀ rnd : Rnd d Φ, Draws s.scaler.low s.scaler.high rnd → Reliable (c.env e) rnd →
      (s.warmup = true → Supported (c.env e) ll (s.priorSamples.getD (rnd.prior (c.env e).nPrior))) → (s.warmup = false → s.particles.past.x ≠ []) →
      ∃ fuel₀, ∀ fuel, fuel₀ ≤ fuel → ∃ s', (run (c.env e) rnd fuel n a s).2 = .ok s' := by
  obtain ⟨-, -, r, h1, h2, h3, -⟩ := C99_starting_values i hsn c hcon e ((fun _ => ninf), fun _ => pinf) none none s.flow
  exact ⟨_, fun rnd hd hrel hsup hne => C114_ends (c.env e) ll lp bb hb hu hc hp s hs lo hi hbd r h1 (fun _ => by linarith) a hk rnd hd hrel hsup hne⟩

end Poco

namespace Poco.Demo
open F Spec

/-- Log-likelihood 1 where the first parameter exceeds 1, 0 elsewhere. -/
noncomputable def step114 (x : Pt 2) : F := if x 0 > fin 1 then fin 1 else fin 0

/-- The example with this likelihood, the other effective size and a dynamic target. -/
noncomputable def env114 : SamplerEnv 2 Unit Unit := { env true with
  like := { single := fun x => .ok (.scalar (step114 x)), vector := fun xs => .ok (xs.map step114), vectorize := false, pool := none }
  dynamic := true
  metric := .uss }

theorem user114 : UserFns env114 step114 (fun _ => fin 0) (fun _ => [()]) false := by
  have hl : ∀ xs, logLike env114.like xs = .ok (xs.map step114, none, false) := fun xs =>
    (C51_vectorize env114.like step114 xs (fun _ _ => .inl rfl) rfl).2
  exact ⟨fun _ => rfl, fun xs _ => hl xs, hl []⟩

theorem bounded114 (x : Pt 2) : ∃ l, step114 x = fin l ∧ 0 ≤ l ∧ l ≤ 1 := by
  unfold step114
  split_ifs
  · exact ⟨1, rfl, zero_le_one, le_rfl⟩
  · exact ⟨0, rfl, le_rfl, zero_le_one⟩

/-- The hypotheses are met by a likelihood that is not constant, preconditioning, the unique sample size and a dynamic target. -/
theorem ends114 : ∃ fuel₀, ∀ fuel, fuel₀ ≤ fuel → ∃ s', (run env114 rnd fuel (iterationBound 0 1 0.5 true 2 start.nEffective 100 + 1) ⟨100, 3, none⟩ start).2 = .ok s' := by
  refine C114_ends env114 step114 (fun _ => fin 0) (fun _ => [()]) false user114 (configured true) (fun x => ?_) start (.fresh ?_) 0 1 (fun x _ => ?_) 0.5 rfl
    (by norm_num) ⟨100, 3, none⟩ (by simp) rnd draws ?_ (fun _ i hi => ?_) (fun h => by cases h)
  · obtain ⟨l, h, -⟩ := bounded114 x
    exact .inr ⟨l, h⟩
  · constructor <;> try rfl
    · exact (fresh true).bounds
    · intro h; cases h
  · exact .inr (bounded114 _)
  · exact ⟨(reliable true).geo, (reliable true).flow, (reliable true).inv, (reliable true).chol, (reliable true).dim, (reliable true).freq, (reliable true).ratio,
      (reliable true).mult, (reliable true).syst⟩
  · refine ⟨pt fun _ => ((i * 2 : ℕ) : ℝ), ?_, ?_⟩
    · have hi' : i < 2 := by simpa [env, env114] using hi
      have : i = 0 ∨ i = 1 := by omega
      rcases this with rfl | rfl <;> simp [start, rnd, env, env114, List.range_succ]
    · obtain ⟨l, h, -⟩ := bounded114 (pt fun _ => ((i * 2 : ℕ) : ℝ))
      rw [h]; rfl

end Poco.Demo
