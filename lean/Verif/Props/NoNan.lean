import Verif.Props.Run
import Verif.Props.Search
import Verif.Props.DemoPosterior

/-! NaN log-likelihoods: property C110. -/

namespace Poco
open F Spec

variable {d : ℕ} {B Φ : Type}

/-! ### weights, sizes and the search on a history with a NaN -/

theorem sum_all_nan {l : List F} (h : l ≠ []) (hn : ∀ v ∈ l, v = nan) : sum l = nan := by
  obtain ⟨a, l, rfl⟩ := List.exists_cons_of_ne_nil h
  exact sum_nan (by rw [hn a (by simp)]; simp)

theorem npow_nan {k : ℕ} (h : 0 < k) : npow nan k = nan := by
  obtain ⟨k, rfl⟩ : ∃ j, k = j + 1 := ⟨k - 1, by omega⟩
  simp [npow]

theorem sizeOf_nan (m : Metric) {w : List F} (h : w ≠ []) (hn : ∀ v ∈ w, v = nan) : sizeOf m w = nan := by
  have hw : normalize w = w.map fun _ => nan := by
    unfold normalize
    apply List.map_congr_left
    intro a ha
    rw [sum_all_nan h hn, div_nan]
  have hl : 0 < w.length := List.length_pos_iff.mpr h
  cases m with
  | ess =>
    simp only [sizeOf, effectiveSampleSize, invSumSq, hw]
    rw [sum_all_nan (by simpa using h)]
    · simp
    · intro v hv
      simp only [List.map_map, List.mem_map, Function.comp_apply] at hv
      obtain ⟨_, -, rfl⟩ := hv
      simp [F.sq]
  | uss =>
    simp only [sizeOf, uniqueSampleSize, hw, Option.getD_none]
    apply sum_all_nan (by simpa using h)
    intro v hv
    simp only [List.map_map, List.mem_map, Function.comp_apply] at hv
    obtain ⟨_, -, rfl⟩ := hv
    rw [sub_nan, npow_nan hl, sub_nan]

theorem essAt_nan {past : Cols d (List B) List} {m : Metric} {β v : F} (hn : nan ∈ past.logl.flatten) (h : essAt past m β = .ok v) :
    v = nan := by
  unfold essAt weightsAt at h
  obtain ⟨w, h1, h⟩ := bind_ok h
  obtain ⟨⟨lw, z⟩, h2, h1⟩ := bind_ok h1
  obtain ⟨mx, h3, h1⟩ := bind_ok h1
  simp only [pure, Except.pure, Except.ok.injEq] at h h1
  obtain ⟨-, k⟩ := C20_nan_poisons past β hn lw z h2
  subst h1 h
  apply sizeOf_nan
  · cases lw with
    | nil => cases h3
    | cons a l => simp
  · intro v hv
    obtain ⟨a, ha, rfl⟩ := List.mem_map.mp hv
    rw [k a ha]; simp

theorem bisectR_nan {r : ℝ → ℝ} {past : Cols d (List B) List} {m : Metric} {N : F} (hn : nan ∈ past.logl.flatten) (fuel : ℕ) :
    ∀ (a b β v : F), bisectR r past m N fuel a b = .ok (β, v) → v = nan := by
  induction fuel with
  | zero => intro a b β v h; cases h
  | succ n ih =>
    intro a b β v h
    simp only [bisectR] at h
    split at h
    · cases h
    · rename_i ess he
      split_ifs at h
      · simp only [Except.ok.injEq, Prod.mk.injEq] at h
        rw [← h.2]; exact essAt_nan hn he
      · exact ih _ _ _ _ h
      · exact ih _ _ _ _ h

/-- A history with a NaN log-likelihood: the search for the next temperature does not succeed. -/
theorem chooseBetaR_nan {r : ℝ → ℝ} {past : Cols d (List B) List} {m : Metric} {N β z v : F} {fuel : ℕ} (hn : nan ∈ past.logl.flatten)
    (h : chooseBetaR r past m N fuel = .ok (β, z, v)) : v = nan := by
  unfold chooseBetaR at h
  obtain ⟨bp, -, h⟩ := bind_ok h
  obtain ⟨e1, h1, h⟩ := bind_ok h
  obtain ⟨e2, h2, h⟩ := bind_ok h
  have k1 := essAt_nan hn h1
  have k2 := essAt_nan hn h2
  subst k1 k2
  rw [if_neg (by simp), if_neg (by simp)] at h
  obtain ⟨⟨b2, e3⟩, h3, h⟩ := bind_ok h
  obtain ⟨⟨_, z'⟩, -, h⟩ := bind_ok h
  simp only [pure, Except.pure, Except.ok.injEq, Prod.mk.injEq] at h
  rw [← h.2.2]
  exact bisectR_nan hn _ _ _ _ _ h3

/-- With exact numbers the loop is not left. -/
theorem bisect_nan {past : Cols d (List B) List} {m : Metric} {N : F} (hn : nan ∈ past.logl.flatten) (fuel : ℕ) :
    ∀ (a b : ℝ), a < 1 → b ≤ 1 → ∀ v, bisect past m N fuel (fin a) (fin b) ≠ .ok v := by
  induction fuel with
  | zero => intro a b _ _ v h; cases h
  | succ n ih =>
    intro a b ha hb v h
    have e : (fin b + fin a) * fin 0.5 = fin ((b + a) * 0.5) := by simp
    simp only [bisect, e] at h
    split at h
    · cases h
    · rename_i ess he
      rw [essAt_nan hn he, if_neg, if_neg (by simp)] at h
      · exact ih _ _ (by linarith) hb v h
      · have : (b + a) * 0.5 ≠ 1 := by intro hh; linarith
        simpa [F.abs] using this

theorem chooseBeta_nan {past : Cols d (List B) List} {m : Metric} {N : F} {fuel : ℕ} {b : ℝ} (hn : nan ∈ past.logl.flatten)
    (hl : past.beta.getLast? = some (fin b)) (hb : b < 1) (v : F × F × F) : chooseBeta past m N fuel ≠ .ok v := by
  intro h
  unfold chooseBeta at h
  obtain ⟨bp, h0, h⟩ := bind_ok h
  rw [getAt_neg_one hl] at h0
  simp only [Except.ok.injEq] at h0
  subst h0
  obtain ⟨e1, h1, h⟩ := bind_ok h
  obtain ⟨e2, h2, h⟩ := bind_ok h
  have k1 := essAt_nan hn h1
  have k2 := essAt_nan hn h2
  subst k1 k2
  rw [if_neg (by simp), if_neg (by simp)] at h
  obtain ⟨v', h3, -⟩ := bind_ok h
  exact bisect_nan hn fuel b 1 hb le_rfl v' h3

/-! ### the search raises ValueError -/

theorem below_one {x : ℝ} (hx : x ∈ doubles) (h : x < 1) : x ≤ 1 - 2 ^ (-53 : ℤ) := by
  obtain ⟨m, e, h1, h2, h3, rfl⟩ := hx
  have e53 : (2 : ℝ) ^ (-53 : ℤ) = 1 / 2 ^ 53 := by norm_num
  by_cases he : -53 ≤ e
  · obtain ⟨n, hn⟩ : ∃ n : ℕ, e + 53 = n := ⟨(e + 53).toNat, by omega⟩
    have : e = n + (-53) := by omega
    rw [this, zpow_add₀ (by norm_num), ← mul_assoc, zpow_natCast, e53] at h ⊢
    have h' : ((m * 2 ^ n : ℤ) : ℝ) < ((2 ^ 53 : ℤ) : ℝ) := by
      push_cast
      rw [mul_one_div, div_lt_iff₀ (by positivity)] at h
      linarith
    have h'' : m * 2 ^ n + 1 ≤ (2 ^ 53 : ℤ) := by exact_mod_cast h'
    have h3 : ((m * 2 ^ n : ℤ) : ℝ) + 1 ≤ (2 ^ 53 : ℝ) := by exact_mod_cast h''
    push_cast at h3
    rw [mul_one_div, div_le_iff₀ (by positivity), sub_mul, one_div, inv_mul_cancel₀ (by positivity)]
    linarith
  · have e1 : (2 : ℝ) ^ e ≤ 2 ^ (-54 : ℤ) := zpow_le_zpow_right₀ (by norm_num) (by omega)
    have m1 : (m : ℝ) ≤ 2 ^ 53 := by exact_mod_cast (abs_le.mp h1).2
    have : (m : ℝ) * 2 ^ e ≤ 2 ^ 53 * 2 ^ (-54 : ℤ) := by
      have : (0 : ℝ) < 2 ^ e := by positivity
      nlinarith
    norm_num at this ⊢
    linarith

theorem one_mem_doubles : (1 : ℝ) ∈ doubles := ⟨2 ^ 52, -52, by norm_num, by norm_num, by norm_num, by norm_num⟩

/-- On a history with a NaN the lower end moves up to 1. -/
theorem bisectR_climbs {r : ℝ → ℝ} (hr : NearestDouble r) (htie : r (2 - 2 ^ (-53 : ℤ)) = 2) (past : Cols d (List B) List) (m : Metric)
    (N : F) (hess : ∀ β, essAt past m β = .ok nan) (n : ℕ) :
    ∀ a : ℝ, a ∈ doubles → 0 ≤ a → a < 1 → (doubles ∩ Set.Ioo a 1).ncard ≤ n →
    ∀ fuel, n + 1 ≤ fuel → bisectR r past m N fuel (fin a) (fin 1) = .ok (fin 1, nan) := by
  have close : ∀ a : ℝ, a ∈ doubles → 0 ≤ a → a < 1 → (∀ x ∈ doubles, ¬ (a < x ∧ x < 1)) → ∀ f,
      bisectR r past m N (f + 1) (fin a) (fin 1) = .ok (fin 1, nan) := by
    intro a ha h0 h1 hnone f
    have k1 := neighbours_close h0 h1 le_rfl hnone
    have k2 := below_one ha h1
    have ea : (1 : ℝ) + a = 2 - 2 ^ (-53 : ℤ) := by linarith
    simp only [bisectR, midR_fin, hess, ea, htie]
    have : r (2 * 0.5) = 1 := by
      rw [show (2 : ℝ) * 0.5 = 1 by norm_num]
      exact nearest_fix hr one_mem_doubles (by norm_num)
    rw [this, if_pos (by simp)]
  induction n with
  | zero =>
    intro a ha h0 h1 hcard fuel hf
    obtain ⟨f, rfl⟩ : ∃ f, fuel = f + 1 := ⟨fuel - 1, by omega⟩
    apply close a ha h0 h1
    intro x hx hxx
    have he := (Set.ncard_eq_zero (doubles_finite.inter_of_left _)).mp (Nat.le_zero.mp hcard)
    exact (Set.eq_empty_iff_forall_notMem.mp he x) ⟨hx, hxx⟩
  | succ n ih =>
    intro a ha h0 h1 hcard fuel hf
    obtain ⟨f, rfl⟩ : ∃ f, fuel = f + 1 := ⟨fuel - 1, by omega⟩
    by_cases hex : ∃ x ∈ doubles, a < x ∧ x < 1
    · obtain ⟨g1, g2, g3, g4⟩ := midpoint hr ha one_mem_doubles h0 h1 le_rfl
      obtain ⟨g5, g6⟩ := g4 hex
      simp only [bisectR, midR_fin, hess]
      set c := r (r (1 + a) * 0.5)
      rw [if_neg (by simpa [F.abs] using g6.ne), if_neg (by simp)]
      have hfin := doubles_finite.inter_of_left (Set.Ioo a 1)
      have hsub : doubles ∩ Set.Ioo c 1 ⊂ doubles ∩ Set.Ioo a 1 := by
        refine ⟨fun x hx => ⟨hx.1, g5.trans hx.2.1, hx.2.2⟩, fun hcon => ?_⟩
        exact lt_irrefl _ (hcon ⟨g1, g5, g6⟩).2.1
      have hn := Set.ncard_lt_ncard hsub hfin
      exact ih c g1 (by linarith) g6 (by omega) f (by omega)
    · exact close a ha h0 h1 (fun x hx hxx => hex ⟨x, hx, hxx⟩) f

/-- The shape of a stored history: as many evidence values as temperatures, and arrays of equal length. -/
def Spec.Shaped (past : Cols d (List B) List) (n : ℕ) : Prop :=
  past.beta.length ≤ past.logz.length ∧ ∀ row ∈ past.logl, row.length = n

theorem computeLogwLogz_shaped {past : Cols d (List B) List} {n : ℕ} (h : Shaped past n) (hn : nan ∈ past.logl.flatten) (β : F) :
    ∃ lw, computeLogwLogz past β = .ok (lw, nan) ∧ lw ≠ [] := by
  have hne : past.logl ≠ [] := by intro h'; rw [h'] at hn; simp at hn
  have hok : ∃ p, computeLogwLogz past β = .ok p ∧ p.1 ≠ [] := by
    unfold computeLogwLogz
    rw [if_neg, if_neg (by have := h.1; omega), if_neg hne]
    · refine ⟨_, rfl, ?_⟩
      have : past.logl.flatten ≠ [] := by intro h'; rw [h'] at hn; simp at hn
      simpa using this
    · obtain ⟨a, l, e⟩ := List.exists_cons_of_ne_nil hne
      have h2 := h.2
      rw [e] at h2 ⊢
      simp only [List.any_eq_true, decide_eq_true_eq, not_exists, not_and, not_not, List.headD_cons]
      intro row hrow
      simp [h2 row hrow, h2 a (by simp)]
  obtain ⟨⟨lw, z⟩, hp, hp2⟩ := hok
  obtain ⟨k1, -⟩ := C20_nan_poisons past β hn lw z hp
  exact ⟨lw, by rw [hp, k1], hp2⟩

theorem essAt_shaped {past : Cols d (List B) List} {n : ℕ} (h : Shaped past n) (hn : nan ∈ past.logl.flatten) (m : Metric) (β : F) :
    essAt past m β = .ok nan := by
  obtain ⟨lw, h1, h2⟩ := computeLogwLogz_shaped h hn β
  have hok : ∃ v, essAt past m β = .ok v := by
    obtain ⟨a, l, rfl⟩ := List.exists_cons_of_ne_nil h2
    unfold essAt weightsAt
    simp [h1, F.max, bind, Except.bind, pure, Except.pure]
  obtain ⟨v, hv⟩ := hok
  rw [hv, essAt_nan hn hv]

/-- C110 (the exception): the history holds a NaN log-likelihood and its last temperature is a double below 1 (after warm-up it is 0).
The next iteration ends the program with `ValueError`: the search goes on until the temperature is 1.0, and the conversion of the NaN
size to an integer raises.  The temperature is a double, rounded to nearest, with the tie at `2 - 2 ^ -53` going to the even neighbour. -/
theorem C110_search_raises {r : ℝ → ℝ} (hr : NearestDouble r) (htie : r (2 - 2 ^ (-53 : ℤ)) = 2) (past : Cols d (List B) List) (n : ℕ)
    (hsh : Shaped past n) (hn : nan ∈ past.logl.flatten) (b : ℝ) (hl : past.beta.getLast? = some (fin b)) (hb : b ∈ doubles)
    (hb0 : 0 ≤ b) (hb1 : b < 1) (m : Metric) (N : F) :
    (∃ fuel₀, ∀ fuel, fuel₀ ≤ fuel → chooseBetaInt r past m N fuel = .error .valueError) ∧
    ∀ fuel v, chooseBetaInt r past m N fuel ≠ .ok v := by
  constructor
  · refine ⟨(doubles ∩ Set.Ioo b 1).ncard + 1, fun fuel hf => ?_⟩
    have hbis := bisectR_climbs hr htie past m N (essAt_shaped hsh hn m) _ b hb hb0 hb1 le_rfl fuel hf
    obtain ⟨lw, hz, -⟩ := computeLogwLogz_shaped hsh hn (fin 1)
    have : chooseBetaR r past m N fuel = .ok (fin 1, nan, nan) := by
      unfold chooseBetaR
      simp only [getAt_neg_one hl, essAt_shaped hsh hn, bind, Except.bind]
      rw [if_neg (by simp), if_neg (by simp)]
      simp [hbis, hz, pure, Except.pure]
    unfold chooseBetaInt
    rw [this]
    rfl
  · intro fuel v h
    unfold chooseBetaInt at h
    obtain ⟨⟨β, z, ess⟩, h1, h⟩ := bind_ok h
    have := chooseBetaR_nan hn h1
    subst this
    obtain ⟨k, h2, -⟩ := bind_ok h
    cases h2

/-! ### runs -/

section
variable {e : SamplerEnv d B Φ} {ll lp : Pt d → F} {bb : Pt d → List B} {hb : Bool} {s s' : Sampler d B Φ} {rnd : Rnd d Φ}
  {its : List (Iter d (List B))}

/-- Only the warm-up stores NaN. -/
def NanWarm (s : Sampler d B Φ) : Prop := nan ∈ s.particles.past.logl.flatten → ∀ b ∈ s.particles.past.beta, b = fin 0

theorem smc_no_nan (hu : UserFns e ll lp bb hb) (hc : Configured e) (hd : Draws s.scaler.low s.scaler.high rnd)
    (h : Inv e ll lp bb hb s its) (hq : NanWarm s) {fuel : ℕ} (hm : smcStep e rnd fuel s = .ok s') :
    nan ∉ s'.particles.past.logl.flatten := by
  obtain ⟨c, s1, c1, s2, c2, s3, c3, h0, h1, h2, h3, h4, rfl⟩ := smcStep_ok hm
  have hlast : its.getLast? = some c.it := by rw [← h.cur, h0]; rfl
  have hne : its ≠ [] := by rintro rfl; simp at hlast
  have hhb := h.blobs hne
  obtain ⟨bs, b1, b2, b3⟩ := h.betas
  obtain ⟨b, hb1, hb2⟩ := getLast_beta hlast b1
  have hb01 := b3 b (List.mem_of_getLast? hb1)
  obtain ⟨nEff, beta, logz, ess, w, tr, k1, k2, k3, k4, rfl⟩ := reweight_ok h1
  have hpl : s.particles.past.beta.getLast? = some (fin b) := by
    rw [h.past]
    change (its.map (·.beta)).getLast? = _
    rw [b1, List.getLast?_map, hb1]
    rfl
  have hclean : nan ∉ s.particles.past.logl.flatten := by
    intro hn
    have hz := hq hn (fin b) (List.mem_of_getLast? hpl)
    simp only [fin_inj] at hz
    exact chooseBeta_nan hn hpl (by rw [hz]; norm_num) _ k1
  obtain ⟨β, rfl, q1, q2⟩ := C21_beta_step _ _ _ _ b hb01.2 hpl _ _ _ k1
  have hcb : hb = false → c.it.blobs = none := by
    intro hf
    obtain ⟨rows, -, r2, -⟩ := h.rows c.it (List.mem_of_getLast? hlast)
    rw [r2.blobs, hf]; rfl
  have hrows : ∀ it ∈ its, HasRows e.nActive hb (fun r => r.logl ≠ nan) it := by
    intro it hit
    obtain ⟨rows, r1, r2, r3, r4⟩ := h.rows it hit
    refine ⟨rows, r1, r2, fun r hr hcon => hclean ?_, r4⟩
    rw [h.past]
    refine List.mem_flatten.mpr ⟨it.logl, List.mem_map.mpr ⟨it, hit, rfl⟩, ?_⟩
    rw [r2.logl]
    exact List.mem_map.mpr ⟨r, hr, hcon⟩
  rw [h.past, hhb] at k4
  obtain ⟨⟨rows1, -, g1, g2⟩, -, -, -, -, -, -, -, gb, -, -⟩ := gatherCur_ok hne hrows hcb k4
  have hs2 : s2.haveBlobs = hb ∧ s2.particles = s.particles := by
    rcases train_ok h2 with ⟨-, flow, g, rfl⟩ | ⟨-, g, rfl⟩ <;> exact ⟨hhb, rfl⟩
  obtain ⟨t1, t3⟩ := hs2
  obtain ⟨⟨rows2, p1, p2, p3⟩, -, -, -, -, -, -, -, pb, -, -⟩ := resampleStep_ok t1 g1 g2 h3
  obtain ⟨ws, k, r, m1, m2, m3, m4⟩ := mutate_ok h4
  simp only [writeBack, Prod.mk.injEq] at m4
  obtain ⟨rfl, rfl⟩ := m4
  obtain ⟨kb, ks, kh, -⟩ := kernelEnv_ok m2
  rw [t1, toWalkers_rows p2] at m1
  simp only [Except.ok.injEq] at m1
  subst m1
  obtain ⟨l1, l2⟩ := C25_invalid_rejected k β (kb.trans (pb.trans gb)) (le_trans hb01.1 q1) fuel (rnd.mcmc s2.t)
    (fun i k => hd.mcmc s2.t i k) _ r m3
  have hnew : nan ∉ r.walkers.map (·.logl) := by
    intro hcon
    obtain ⟨w', hw', hwn⟩ := List.mem_map.mp hcon
    obtain ⟨j, hj, rfl⟩ := List.mem_iff_getElem.mp hw'
    rcases l2 j r.walkers[j] (List.getElem?_eq_getElem hj) with ⟨w0, hw0, sp⟩ | adm
    · rw [List.getElem?_map] at hw0
      obtain ⟨r0, hr0, rfl⟩ := Option.map_eq_some_iff.mp hw0
      exact p3 r0 (List.mem_of_getElem? hr0) (sp.2.2.2.1.symm.trans hwn)
    · exact adm.2.2.2.1 hwn
  rw [update_columns _ its (by rw [t3]; exact h.past)]
  intro hcon
  obtain ⟨row, hrow, hmem⟩ := List.mem_flatten.mp hcon
  obtain ⟨it, hit, rfl⟩ := List.mem_map.mp hrow
  rcases List.mem_append.mp hit with hit | hit
  · apply hclean
    rw [h.past]
    exact List.mem_flatten.mpr ⟨it.logl, List.mem_map.mpr ⟨it, hit, rfl⟩, hmem⟩
  · simp only [List.mem_singleton] at hit
    subst hit
    exact hnew hmem

theorem nanWarm_move (hu : UserFns e ll lp bb hb) (hc : Configured e) (hd : Draws s.scaler.low s.scaler.high rnd)
    (h : Inv e ll lp bb hb s its) (hq : NanWarm s) (hm : Move e rnd s s') : NanWarm s' := by
  cases hm with
  | init a hm =>
    rcases runInit_ok hm with ⟨-, rfl⟩ | ⟨-, sc, -, rfl⟩ <;> exact hq
  | warm i hw hi hm =>
    obtain ⟨more, k1, -⟩ := h.move hu hc hd (.warm i hw hi hm)
    have hw' : s'.warmup = true := (warmupStep_warmup hm).1.trans hw
    intro _ b hb
    rw [k1.past] at hb
    obtain ⟨it, hit, rfl⟩ := List.mem_map.mp hb
    exact k1.warm hw' it hit
  | endWarm hw => exact hq
  | smc fuel hw hm => exact fun hn => absurd hn (smc_no_nan hu hc hd h hq hm)
  | evidence hw hm =>
    have : s'.particles = s.particles := by
      rcases finalEvidence_ok hm with ⟨-, -, h⟩ | ⟨-, lw, z, -, rfl⟩
      · obtain ⟨inv, ll', bl, hbl, h1, h2, rfl⟩ := computeEvidence_ok h
        rfl
      · rfl
    unfold NanWarm
    rw [this]; exact hq

theorem nanWarm_moves (hu : UserFns e ll lp bb hb) (hc : Configured e) (hd : Draws s.scaler.low s.scaler.high rnd)
    (h : Inv e ll lp bb hb s its) (hq : NanWarm s) (hm : Moves e rnd s s') : NanWarm s' := by
  induction hm with
  | refl => exact hq
  | tail hm hm1 ih =>
    obtain ⟨more, k1, k2, k3⟩ := h.moves hu hc hd hm
    exact nanWarm_move hu hc (by rw [k2, k3]; exact hd) k1 ih hm1

theorem Spec.Session.nanWarm (hu : UserFns e ll lp bb hb) (hc : Configured e) (h : Session e hb s) : NanWarm s := by
  induction h with
  | fresh h => intro hn; rw [h.particles] at hn; simp [Particles.init] at hn
  | ran rnd fuel n a hs hd hr ih =>
    obtain ⟨its, hi⟩ := hs.inv hu hc
    exact nanWarm_moves hu hc hd hi ih ((Along.run fuel n a _).to_end _ hr).1
  | loaded rnd fuel n a sv hs hd hr ih =>
    obtain ⟨its, hi⟩ := hs.inv hu hc
    exact nanWarm_moves hu hc hd hi ih ((Along.run fuel n a _).from_start sv hr)

/-- C110: whatever the likelihood returns, when `run` returns, none of the stored log-likelihoods is NaN. -/
theorem C110_no_nan_returned (hu : UserFns e ll lp bb hb) (hc : Configured e) (h : Session e hb s)
    (hd : Draws s.scaler.low s.scaler.high rnd) (fuel n : ℕ) (a : RunArgs) (hr : (run e rnd fuel n a s).2 = .ok s') :
    ∀ row ∈ s'.particles.past.logl, nan ∉ row := by
  obtain ⟨s1, s2, s3, h1, h2, h3, h4⟩ := run_ok hr
  obtain ⟨its, hi⟩ := h.inv hu hc
  have m1 : Moves e rnd s s1 := .single (.init a h1)
  obtain ⟨w1, w2⟩ := Along.runWarmup (e := e) (rnd := rnd) a s.t s1
  have m2 := (w1.to_end s2 h2).1
  obtain ⟨l1, l2⟩ := Along.smcLoop (e := e) (rnd := rnd) fuel a.saveEvery s.t n s2 (w2 s2 h2)
  have m3 := (l1.to_end s3 h3).1
  obtain ⟨-, hterm⟩ := l2 s3 h3
  have hmv := (m1.trans m2).trans m3
  obtain ⟨more, hi3, -⟩ := hi.moves hu hc hd hmv
  have hq := nanWarm_moves hu hc hd hi (h.nanWarm hu hc) hmv
  obtain ⟨ess, k1, k2⟩ := bind_ok hterm
  obtain ⟨c, k2, k3⟩ := bind_ok k2
  have hcur : s3.cur = some c := orErr_ok k2
  have hlast : (its ++ more).getLast? = some c.it := by rw [← hi3.cur, hcur]; rfl
  have hpast : s'.particles.past = s3.particles.past := by
    rcases finalEvidence_ok h4 with ⟨-, -, h⟩ | ⟨-, lw, z, -, rfl⟩
    · obtain ⟨inv, ll', bl, hbl, h1, h2, rfl⟩ := computeEvidence_ok h
      rfl
    · rfl
  rw [hpast]
  intro row hrow hmem
  have hz := hq (List.mem_flatten.mpr ⟨row, hrow, hmem⟩) c.it.beta (by
    rw [hi3.past]
    exact List.mem_map.mpr ⟨c.it, List.mem_of_getLast? hlast, rfl⟩)
  simp only [pure, Except.pure, Except.ok.injEq, Bool.or_eq_false_iff, decide_eq_false_iff_not, hz, fin_sub, ge_iff_le, F.fin_le] at k3
  norm_num at k3

/-- C110 (resumption): once a state holds a NaN log-likelihood, no run started from it returns. -/
theorem C110_stuck (hu : UserFns e ll lp bb hb) (hc : Configured e) (h : Session e hb s)
    (hd : Draws s.scaler.low s.scaler.high rnd) (hn : ∃ row ∈ s.particles.past.logl, nan ∈ row) (fuel n : ℕ) (a : RunArgs) :
    ∀ s', (run e rnd fuel n a s).2 ≠ .ok s' := by
  intro s' hr
  obtain ⟨row, hrow, hmem⟩ := hn
  obtain ⟨its, hi⟩ := h.inv hu hc
  obtain ⟨more, hi', -⟩ := hi.moves hu hc hd ((Along.run fuel n a _).to_end _ hr).1
  refine C110_no_nan_returned hu hc h hd fuel n a hr row ?_ hmem
  rw [hi.past] at hrow
  rw [hi'.past]
  obtain ⟨it, hit, rfl⟩ := List.mem_map.mp hrow
  exact List.mem_map.mpr ⟨it, List.mem_append_left _ hit, rfl⟩
end

/-! ### the hypotheses can be met -/

theorem below_two {y : ℝ} (hy : y ∈ doubles) (h : y < 2) : y ≤ 2 - 2 ^ (-52 : ℤ) := by
  by_cases h1 : y ≤ 1
  · norm_num; linarith
  obtain ⟨m, e, h2, h3, h4, rfl⟩ := hy
  have he : -1073 ≤ e := by
    by_contra hcon
    apply h1
    have e1 : (2 : ℝ) ^ e ≤ 2 ^ (-53 : ℤ) := zpow_le_zpow_right₀ (by norm_num) (by omega)
    have m1 : (m : ℝ) ≤ 2 ^ 53 := by exact_mod_cast (abs_le.mp h2).2
    have : (m : ℝ) * 2 ^ e ≤ 2 ^ 53 * 2 ^ (-53 : ℤ) := by
      have : (0 : ℝ) < 2 ^ e := by positivity
      nlinarith
    norm_num at this
    exact this
  have hhalf : (m : ℝ) * 2 ^ (e - 1) = m * 2 ^ e / 2 := by rw [zpow_sub₀ (by norm_num)]; ring
  have := below_one (x := (m : ℝ) * 2 ^ (e - 1)) ⟨m, e - 1, h2, by omega, by omega, rfl⟩ (by rw [hhalf]; linarith)
  rw [hhalf] at this
  norm_num at this ⊢
  linarith

/-- There is a rounding as `C110_search_raises` wants it. -/
theorem exists_ties_even : ∃ r, NearestDouble r ∧ r (2 - 2 ^ (-53 : ℤ)) = 2 := by
  obtain ⟨r, hr⟩ := exists_nearest
  refine ⟨fun x => if x = 2 - 2 ^ (-53 : ℤ) then 2 else r x, fun x hx => ?_, if_pos rfl⟩
  by_cases h : x = 2 - 2 ^ (-53 : ℤ)
  · simp only [h, if_true]
    refine ⟨⟨2 ^ 53, -52, by norm_num, by norm_num, by norm_num, by norm_num⟩, fun y hy => ?_⟩
    have e53 : (2 : ℝ) ^ (-52 : ℤ) = 2 * 2 ^ (-53 : ℤ) := by norm_num
    have pos : (0 : ℝ) < 2 ^ (-53 : ℤ) := by positivity
    rw [show (2 : ℝ) - (2 - 2 ^ (-53 : ℤ)) = 2 ^ (-53 : ℤ) by ring, abs_of_pos pos]
    by_cases hy2 : y < 2
    · have := below_two hy hy2
      rw [abs_of_nonpos (by linarith)]
      linarith
    · rw [abs_of_nonneg (by linarith)]
      linarith
  · simp only [h, if_false]
    exact hr x hx

namespace Demo

open scoped Classical in
/-- After a warm-up that met a NaN at one of two points: the next iteration raises, and no run from that state returns. -/
theorem nan_case : ∃ (ll lp : Pt 2 → F) (s : Sampler 2 Unit Unit), Session (envOf ll lp) true s ∧
    (∀ rnd, Draws s.scaler.low s.scaler.high rnd → ∀ fuel n a s', (run (envOf ll lp) rnd fuel n a s).2 ≠ .ok s') ∧
    ∃ r, ∃ fuel₀, ∀ fuel, fuel₀ ≤ fuel → chooseBetaInt r s.particles.past .ess (fin 2) fuel = .error .valueError := by
  let ll : Pt 2 → F := fun x => if x = pt (fun _ => 0) then fin 0 else nan
  have h0 : ll (pt fun _ => 0) = fin 0 := if_pos rfl
  have h1 : ll (pt fun _ => 1) = nan := if_neg fun h => by simpa [pt] using congrFun h 0
  obtain ⟨s, hs, -, hl, hb, hz⟩ := warmOf ll (fun _ => fin 0) (by rw [h0]; rfl) (by rw [h1]; rfl)
  rw [h0, h1] at hl
  obtain ⟨r, hr1, hr2⟩ := exists_ties_even
  refine ⟨ll, fun _ => fin 0, s, hs, fun rnd hd fuel n a s' => ?_, r, ?_⟩
  · exact C110_stuck (userOf _ _) (configuredOf _ _) hs hd ⟨[fin 0, nan], by rw [hl]; simp, by simp⟩ fuel n a s'
  · exact (C110_search_raises hr1 hr2 _ 2 ⟨by rw [hb, hz], by rw [hl]; simp⟩ (by rw [hl]; simp) 0 (by rw [hb]; rfl)
      ⟨0, -52, by norm_num, by norm_num, by norm_num, by norm_num⟩ le_rfl (by norm_num) .ess (fin 2)).1

/-- A run that returns. -/
example : ∃ s', (run (env true) rnd 0 1 (args 0) start).2 = .ok s' ∧ s'.particles.past.logl ≠ [] ∧ ∀ row ∈ s'.particles.past.logl, nan ∉ row := by
  obtain ⟨s', its, hr, hi, -, hl, -⟩ := first_run true 0
  refine ⟨s', hr, ?_, C110_no_nan_returned (user true) (configured true) (.fresh (fresh true)) draws 0 1 (args 0) hr⟩
  obtain ⟨st, b, k1, k2, k3, -⟩ := C24_run_reached (user true) proper (configured true) (.fresh (fresh true)) draws 0 1 (args 0) hr
  intro h
  have := hi.past
  rw [this] at h k3
  cases its with
  | nil => cases k3
  | cons _ _ => cases h

end Demo

end Poco
