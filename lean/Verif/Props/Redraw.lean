import Verif.Spec.Redraw
import Verif.Props.Cut

/-! Averages over resampled posterior samples: property C149. -/

namespace Poco
open F Spec Classical

theorem gather_eq {α : Type} (l : List α) (idx : List ℕ) (h : ∀ i ∈ idx, i < l.length) : gather l idx = .ok (idx.filterMap (l[·]?)) := by
  unfold gather
  induction idx with
  | nil => rfl
  | cons i idx ih =>
    rw [List.mapM_cons, ih fun j hj => h j (by simp [hj])]
    have := h i (by simp)
    simp [List.getElem?_eq_getElem this, bind, Except.bind, pure, Except.pure]

theorem filterMap_length {α : Type} (l : List α) (idx : List ℕ) (h : ∀ i ∈ idx, i < l.length) : (idx.filterMap (l[·]?)).length = idx.length := by
  induction idx with
  | nil => rfl
  | cons i idx ih =>
    have := h i (by simp)
    simp [List.getElem?_eq_getElem this, ih fun j hj => h j (by simp [hj])]

theorem filterMap_getElem? {α : Type} (l : List α) (idx : List ℕ) (h : ∀ i ∈ idx, i < l.length) (k : ℕ) :
    (idx.filterMap (l[·]?))[k]? = (idx[k]?).bind (l[·]?) := by
  induction idx generalizing k with
  | nil => simp
  | cons i idx ih =>
    have := h i (by simp)
    cases k with
    | zero => simp [List.getElem?_eq_getElem this]
    | succ k => simp [List.getElem?_eq_getElem this, ih fun j hj => h j (by simp [hj])]

/-- A sum over chosen elements counts how often each is chosen. -/
theorem sum_chosen {α : Type} (l : List α) (g : α → ℝ) (idx : List ℕ) (h : ∀ i ∈ idx, i < l.length) :
    ((idx.filterMap (l[·]?)).map g).sum = ∑ j : Fin l.length, (idx.count j.1 : ℝ) * g l[j] := by
  induction idx with
  | nil => simp
  | cons i idx ih =>
    have hi := h i (by simp)
    have e : ∀ j : Fin l.length, ((i :: idx).count j.1 : ℝ) * g l[j] = (idx.count j.1 : ℝ) * g l[j] + if j = ⟨i, hi⟩ then g l[j] else 0 := by
      intro j
      rw [List.count_cons]
      by_cases hj : j = ⟨i, hi⟩
      · subst hj
        simp [add_mul]
      · have : ¬ i = j.1 := fun h => hj (Fin.ext h.symm)
        simp [hj, this]
    rw [Finset.sum_congr rfl fun j _ => e j, Finset.sum_add_distrib, ← ih fun j hj => h j (by simp [hj])]
    simp [List.getElem?_eq_getElem hi, add_comm]

theorem weightedMean_fin {d : ℕ} (f : Pt d × F × F → ℝ) (rows : List (Pt d × F × F)) (ws : List ℝ) (h : ws.length = rows.length) :
    weightedMean f rows ws = ∑ j : Fin rows.length, ws[j.1] * f rows[j] := by
  unfold weightedMean
  rw [← List.sum_ofFn]
  congr 1
  apply List.ext_getElem
  · simp [h]
  · intro i h1 h2
    simp

/-- Which index a uniform draw selects. -/
theorem mult_index (w : List ℝ) (h : IsWeights w) (hs : w.sum = 1) : ∃ pick : ℝ → ℕ,
    (∀ us : List ℝ, multinomialResample (w.map fin) us = .ok (us.map pick)) ∧
    ∀ v, 0 ≤ v → v < 1 → pick v < w.length ∧ cum w (pick v) ≤ v ∧ v < cum w (pick v + 1) := by
  have h1 := C12_multinomial w h (by rw [hs]; simp [sqrtEps]) [] (by simp)
  obtain ⟨l, hl, -⟩ := h1
  have hex : ∃ pick : ℝ → ℕ, ∀ us : List ℝ, multinomialResample (w.map fin) us = .ok (us.map pick) := by
    unfold multinomialResample at hl ⊢
    dsimp only at hl ⊢
    split at hl
    · cases hl
    · split_ifs at hl
      rename_i g1 g2
      exact ⟨_, fun _ => by rw [if_neg g1, if_neg g2]⟩
  obtain ⟨pick, hpick⟩ := hex
  refine ⟨pick, hpick, fun v h0 h1 => ?_⟩
  obtain ⟨l, k1, k2⟩ := C12_multinomial w h (by rw [hs]; simp [sqrtEps]) [v] (by simpa using ⟨h0, h1⟩)
  rw [hpick] at k1
  simp only [Except.ok.injEq] at k1
  subst k1
  simp only [List.map_cons, List.map_nil, List.forall₂_cons, List.Forall₂.nil, and_true, hs, div_one] at k2
  obtain ⟨x, g1, g2, g3, g4⟩ := k2
  obtain ⟨g5, g6⟩ := List.getElem?_eq_some_iff.mp g1
  refine ⟨g5, g3, ?_⟩
  rw [cum_succ _ _ g5, g6]
  exact g4

theorem mult_unbiased (w : List ℝ) (h : IsWeights w) (hs : w.sum = 1) (pick : ℝ → ℕ)
    (hp : ∀ v, 0 ≤ v → v < 1 → pick v < w.length ∧ cum w (pick v) ≤ v ∧ v < cum w (pick v + 1)) (g : Fin w.length → ℝ) :
    ∫ v in (0 : ℝ)..1, (if hv : pick v < w.length then g ⟨pick v, hv⟩ else 0) = ∑ j : Fin w.length, w[j] * g j := by
  have e : ∫ v in (0 : ℝ)..1, (if hv : pick v < w.length then g ⟨pick v, hv⟩ else 0)
      = ∫ v in (0 : ℝ)..1, ∑ j : Fin w.length, (if cum w j.1 < v ∧ v ≤ cum w (j.1 + 1) then (1 : ℝ) else 0) * g j := by
    apply intervalIntegral.integral_congr_ae
    have hfin : (Set.range fun j : Fin (w.length + 1) => cum w j.1).Finite := Set.finite_range _
    have hae : ∀ᵐ x : ℝ, x ∉ Set.range fun j : Fin (w.length + 1) => cum w j.1 := by
      rw [MeasureTheory.ae_iff]
      simp only [not_not]
      exact hfin.measure_zero _
    filter_upwards [hae] with v hv hv2
    rw [Set.uIoc_of_le zero_le_one] at hv2
    have hne : ∀ j, j ≤ w.length → cum w j ≠ v := fun j hj hh => hv ⟨⟨j, by omega⟩, hh⟩
    have hv1 : v < 1 := lt_of_le_of_ne hv2.2 fun hh => hne w.length le_rfl (by rw [cum_length, hs, hh])
    obtain ⟨p1, p2, p3⟩ := hp v hv2.1.le hv1
    rw [dif_pos p1, Finset.sum_eq_single ⟨pick v, p1⟩]
    · rw [if_pos ⟨lt_of_le_of_ne p2 (hne _ p1.le), p3.le⟩, one_mul]
    · intro j _ hj
      rw [if_neg, zero_mul]
      rintro ⟨q1, q2⟩
      rcases lt_trichotomy j.1 (pick v) with hh | hh | hh
      · have := cum_mono h.1 (show j.1 + 1 ≤ pick v from hh)
        exact hne (pick v) p1.le (le_antisymm p2 (q2.trans this))
      · exact hj (Fin.ext hh)
      · have := cum_mono h.1 (show pick v + 1 ≤ j.1 from hh)
        linarith
    · simp
  rw [e, intervalIntegral.integral_finsetSum]
  · apply Finset.sum_congr rfl
    intro j _
    rw [intervalIntegral.integral_mul_const]
    have hle := cum_le_sum h.1 (j.1 + 1)
    rw [hs] at hle
    have := integral_indicator_Ioc (cum w j.1) (cum w (j.1 + 1)) 1 (cum_nonneg h.1 j.1) (cum_mono h.1 (Nat.le_succ j.1)) (by simpa using hle)
    simp only [Nat.cast_one] at this
    rw [this, cum_succ _ _ j.2]
    simp
  · intro j _
    exact (intervalIntegrable_Ioc _ _ _ _).mul_const _

section
variable {d : ℕ} {B Φ : Type} {e : SamplerEnv d B Φ} {ll lp : Pt d → F} {bb : Pt d → List B} {hb : Bool} {s : Sampler d B Φ}

/-- The weighted output, and the output with resampling as a choice of its rows. -/
theorem redraw_core (hu : UserFns e ll lp bb hb) (hp : ProperLike ll) (hc : Configured e) (hs : Session e hb s)
    (hne : s.particles.past.x ≠ []) (a : PostArgs)
    (ha : a.trim = true → ∃ ε : ℝ, a.essTrim = fin ε ∧ ε ≤ 1 ∧ 1 ≤ a.binsTrim) (hbl : a.returnBlobs = true → hb = true) :
    ∃ (out0 : PostOut d B) (ws : List ℝ), (∀ us u, posterior e us u { a with resample := false, returnLogw := false } s = .ok out0) ∧
      out0.weights = some (ws.map fin) ∧ IsWeights ws ∧ (∀ w ∈ ws, 0 < w) ∧ ws.sum = 1 ∧ ws.length = (outRows out0).length ∧
      out0.samples.length = (outRows out0).length ∧
      ∀ us u idx, (match e.resample with
          | .mult => multinomialResample (ws.map fin) ((List.range (outRows out0).length).map us)
          | .syst => systematicResample (outRows out0).length (ws.map fin) u) = .ok idx → (∀ i ∈ idx, i < (outRows out0).length) →
        ∃ out, posterior e us u { a with resample := true } s = .ok out ∧ outRows out = idx.filterMap ((outRows out0)[·]?) := by
  obtain ⟨its, hi⟩ := hs.inv hu hc (ll := ll) (lp := lp) (bb := bb)
  have hne' : its ≠ [] := by
    rintro rfl
    apply hne
    rw [hi.past]; rfl
  obtain ⟨H, all, kept, p0, p, ls, hH, hR, hall, hll, hbel, hsub, htr, hkl, hkn, hp0, hp1, hp2⟩ := posterior_core hc hi hp hne' a ha hbl
  have hls : ls ≠ [] := by
    rintro rfl
    simp at hkl
    exact hkn hkl
  obtain ⟨w1, w2, w3⟩ := relWeights_spec hR.1 hls
  have hlen : ls.length = kept.length := by simpa using (congrArg List.length hkl).symm
  have e1 : ∀ us u b c, posterior e us u { a with resample := b, returnLogw := c } s
      = postReturn e.resample us u { a with resample := b, returnLogw := c } p := by
    intro us u b c
    unfold posterior
    rw [show postCollect { a with resample := b, returnLogw := c } s = .ok p0 from hp0]
    simp only [bind, Except.bind]
    rw [show postTrim { a with resample := b, returnLogw := c } p0 = .ok p from hp1]
  have hrows : ∀ k : List (Row d (List B)), (k.map (·.x)).zip ((k.map (·.logl)).zip (k.map (·.logp))) = k.map fun r => (r.x, r.logl, r.logp) := by
    intro k
    induction k with
    | nil => rfl
    | cons r k ih => simp [ih]
  set out0 : PostOut d B := PostOut.mk (kept.map (·.x)) (some ((relWeights H ls).map fin)) (kept.map (·.logl)) (kept.map (·.logp))
    (if a.returnBlobs then some (kept.map (·.blob)) else none) with hout
  have ho : outRows out0 = kept.map fun r => (r.x, r.logl, r.logp) := hrows kept
  refine ⟨out0, relWeights H ls, fun us u => ?_, rfl, ⟨fun w hw => (w1 w hw).le, by rw [w2]; exact one_pos⟩, w1, w2, by rw [ho]; simp; omega,
    by rw [ho]; simp [hout], fun us u idx hidx hval => ?_⟩
  · rw [e1]
    simp only [postReturn, hp2]
    rfl
  · rw [ho, List.length_map] at hval hidx
    have hg := gather_eq kept idx hval
    have hpi : postIdx e.resample us u p = .ok idx := by
      rw [hp2]
      unfold postIdx
      cases hk : e.resample <;> rw [hk] at hidx <;> simp only [List.length_map] <;> simp only at hidx
      · exact hidx
      · rw [w3, hlen]
        exact hidx
    have hgb : gatherBlobs (if a.returnBlobs then some (kept.map (·.blob)) else none) idx
        = .ok (if a.returnBlobs then some ((idx.filterMap (kept[·]?)).map (·.blob)) else none) := by
      cases a.returnBlobs
      · rfl
      · simp only [if_true, gatherBlobs, gather_map, hg, Except.map]
    refine ⟨PostOut.mk ((idx.filterMap (kept[·]?)).map (·.x)) none ((idx.filterMap (kept[·]?)).map (·.logl)) ((idx.filterMap (kept[·]?)).map (·.logp))
      (if a.returnBlobs then some ((idx.filterMap (kept[·]?)).map (·.blob)) else none), ?_, ?_⟩
    · have := e1 us u true a.returnLogw
      rw [show ({ a with resample := true } : PostArgs) = { a with resample := true, returnLogw := a.returnLogw } from rfl, this]
      simp only [postReturn, if_true, hpi, bind, Except.bind]
      simp only [hp2, gather_map, hg, hgb, Except.map, pure, Except.pure]
    · rw [ho]
      unfold outRows
      rw [hrows, List.map_filterMap]
      congr 1
      funext i
      simp

/-- C149 (systematic resampling): with `resample=True` each row of the weighted output is returned `N` times its weight, rounded up or down, `N` being
the number of rows, and rows keep their order; averaged over the one uniform draw, the plain average of any quantity over the returned rows is its
weighted average over the output with `resample=False`. -/
theorem C149_systematic (hu : UserFns e ll lp bb hb) (hp : ProperLike ll) (hc : Configured e) (hs : Session e hb s)
    (hne : s.particles.past.x ≠ []) (hk : e.resample = .syst) (us : ℕ → ℝ) (a : PostArgs)
    (ha : a.trim = true → ∃ ε : ℝ, a.essTrim = fin ε ∧ ε ≤ 1 ∧ 1 ≤ a.binsTrim) (hbl : a.returnBlobs = true → hb = true) :
    ∃ (out0 : PostOut d B) (ws : List ℝ), (∀ us u, posterior e us u { a with resample := false, returnLogw := false } s = .ok out0) ∧
      out0.weights = some (ws.map fin) ∧ ws.sum = 1 ∧ ws.length = (outRows out0).length ∧ out0.samples.length = (outRows out0).length ∧
      (∀ u, 0 < u → u < 1 → ∃ (out : PostOut d B) (idx : List ℕ), posterior e us u { a with resample := true } s = .ok out ∧
        outRows out = idx.filterMap ((outRows out0)[·]?) ∧ (outRows out).length = (outRows out0).length ∧ idx.Pairwise (· ≤ ·) ∧
        ∀ (j : ℕ) (hj : j < ws.length), |(idx.count j : ℝ) - (outRows out0).length * ws[j]| < 1) ∧
      ∀ f : Pt d × F × F → ℝ, ∫ u in (0 : ℝ)..1, meanOver f (posterior e us u { a with resample := true } s) = weightedMean f (outRows out0) ws := by
  obtain ⟨out0, ws, h1, h2, hW, hpos, hs1, hl, hl', h3⟩ := redraw_core hu hp hc hs hne a ha hbl
  simp only [hk] at h3
  have hn : 1 ≤ (outRows out0).length := by
    rw [← hl]
    exact List.length_pos_iff.mpr hW.ne_nil
  have key : ∀ u, 0 < u → u < 1 → ∃ (out : PostOut d B) (idx : List ℕ), systematicResample (outRows out0).length (ws.map fin) u = .ok idx ∧
      posterior e us u { a with resample := true } s = .ok out ∧
      outRows out = idx.filterMap ((outRows out0)[·]?) ∧ (∀ i ∈ idx, i < (outRows out0).length) ∧ (outRows out).length = (outRows out0).length ∧ idx.Pairwise (· ≤ ·) ∧
      ∀ (j : ℕ) (hj : j < ws.length), |(idx.count j : ℝ) - (outRows out0).length * ws[j]| < 1 := by
    intro u u0 u1
    obtain ⟨idx, k1, k2, k3, k4, -, k5⟩ := C08_systematic (outRows out0).length ws hW (.inl hs1) u u0.le u1
    have k3' : ∀ i ∈ idx, i < (outRows out0).length := fun i hi => by rw [← hl]; exact k3 i hi
    obtain ⟨out, g1, g2⟩ := h3 us u idx k1 k3'
    refine ⟨out, idx, k1, g1, g2, k3', by rw [g2, filterMap_length _ _ k3', k2], k4, fun j hj => ?_⟩
    have := k5 u0 j hj
    rwa [hs1, div_one] at this
  refine ⟨out0, ws, h1, h2, hs1, hl, hl', fun u u0 u1 => ?_, fun f => ?_⟩
  · obtain ⟨out, idx, -, g1, g2, -, g3, g4, g5⟩ := key u u0 u1
    exact ⟨out, idx, g1, g2, g3, g4, g5⟩
  · have hN : ((outRows out0).length : ℝ) ≠ 0 := by
      have : (1 : ℝ) ≤ (outRows out0).length := by exact_mod_cast hn
      positivity
    have hint : ∫ u in (0 : ℝ)..1, meanOver f (posterior e us u { a with resample := true } s)
        = ∫ u in (0 : ℝ)..1, ∑ j : Fin (outRows out0).length, (occurrences (systematicResample (outRows out0).length (ws.map fin) u) j.1 : ℝ)
            * (f (outRows out0)[j] / (outRows out0).length) := by
      apply intervalIntegral.integral_congr_ae
      have : ∀ᵐ x : ℝ, x ≠ 1 := by
        rw [MeasureTheory.ae_iff]
        simp
      filter_upwards [this] with x hx hx2
      rw [Set.uIoc_of_le zero_le_one] at hx2
      obtain ⟨out, idx, g0, g1, g2, g3, g4, -⟩ := key x hx2.1 (lt_of_le_of_ne hx2.2 hx)
      rw [g0, g1]
      simp only [meanOver, occurrences]
      rw [g4, g2, sum_chosen _ _ _ g3, Finset.sum_div]
      apply Finset.sum_congr rfl
      intro j _
      rw [mul_div_assoc]
    have hun : ∀ j : Fin (outRows out0).length, ∫ u in (0 : ℝ)..1, (occurrences (systematicResample (outRows out0).length (ws.map fin) u) j.1 : ℝ)
        = (outRows out0).length * ws[j.1] := fun j => C09_unbiased _ hn ws hW hs1 j.1 (by rw [hl]; exact j.2)
    rw [hint, intervalIntegral.integral_finsetSum, weightedMean_fin f _ _ hl]
    · apply Finset.sum_congr rfl
      intro j _
      rw [intervalIntegral.integral_mul_const, hun j]
      field_simp
    · intro j _
      apply IntervalIntegrable.mul_const
      apply intervalIntegral.intervalIntegrable_of_integral_ne_zero
      rw [hun j]
      exact mul_ne_zero hN (hpos _ (List.getElem_mem _)).ne'

/-- C149 (multinomial resampling): with `resample=True` there are as many rows as in the weighted output; row `k` depends on no uniform draw but
number `k`, and averaged over that draw the value of any quantity at row `k` is its weighted average over the output with `resample=False`. -/
theorem C149_multinomial (hu : UserFns e ll lp bb hb) (hp : ProperLike ll) (hc : Configured e) (hs : Session e hb s)
    (hne : s.particles.past.x ≠ []) (hk : e.resample = .mult) (u : ℝ) (a : PostArgs)
    (ha : a.trim = true → ∃ ε : ℝ, a.essTrim = fin ε ∧ ε ≤ 1 ∧ 1 ≤ a.binsTrim) (hbl : a.returnBlobs = true → hb = true) :
    ∃ (out0 : PostOut d B) (ws : List ℝ), (∀ us u, posterior e us u { a with resample := false, returnLogw := false } s = .ok out0) ∧
      out0.weights = some (ws.map fin) ∧ ws.sum = 1 ∧ ws.length = (outRows out0).length ∧ out0.samples.length = (outRows out0).length ∧
      (∀ us : ℕ → ℝ, (∀ k, 0 ≤ us k ∧ us k < 1) → ∃ out, posterior e us u { a with resample := true } s = .ok out ∧
        (outRows out).length = (outRows out0).length ∧ ∀ r ∈ outRows out, r ∈ outRows out0) ∧
      (∀ us us' : ℕ → ℝ, (∀ k, 0 ≤ us k ∧ us k < 1) → (∀ k, 0 ≤ us' k ∧ us' k < 1) → ∀ k, us k = us' k → ∀ f,
        valueAt k f (posterior e us u { a with resample := true } s) = valueAt k f (posterior e us' u { a with resample := true } s)) ∧
      ∀ us : ℕ → ℝ, (∀ k, 0 ≤ us k ∧ us k < 1) → ∀ k < (outRows out0).length, ∀ f : Pt d × F × F → ℝ,
        ∫ v in (0 : ℝ)..1, valueAt k f (posterior e (Function.update us k v) u { a with resample := true } s) = weightedMean f (outRows out0) ws := by
  obtain ⟨out0, ws, h1, h2, hW, hpos, hs1, hl, hl', h3⟩ := redraw_core hu hp hc hs hne a ha hbl
  simp only [hk] at h3
  obtain ⟨pick, p1, p2⟩ := mult_index ws hW hs1
  have key : ∀ us : ℕ → ℝ, (∀ k, 0 ≤ us k ∧ us k < 1) → ∃ out, posterior e us u { a with resample := true } s = .ok out ∧
      outRows out = (((List.range (outRows out0).length).map us).map pick).filterMap ((outRows out0)[·]?) ∧
      (∀ i ∈ ((List.range (outRows out0).length).map us).map pick, i < (outRows out0).length) := by
    intro us hus
    have hval : ∀ i ∈ ((List.range (outRows out0).length).map us).map pick, i < (outRows out0).length := by
      intro i hi
      obtain ⟨v, hv, rfl⟩ := List.mem_map.mp hi
      obtain ⟨k, -, rfl⟩ := List.mem_map.mp hv
      rw [← hl]
      exact (p2 _ (hus k).1 (hus k).2).1
    obtain ⟨out, g1, g2⟩ := h3 us u _ (p1 _) hval
    exact ⟨out, g1, g2, hval⟩
  have hat : ∀ us : ℕ → ℝ, (∀ k, 0 ≤ us k ∧ us k < 1) → ∀ k f, valueAt k f (posterior e us u { a with resample := true } s)
      = if k < (outRows out0).length then (((outRows out0)[pick (us k)]?).map f).getD 0 else 0 := by
    intro us hus k f
    obtain ⟨out, g1, g2, g3⟩ := key us hus
    rw [g1]
    simp only [valueAt]
    rw [g2, filterMap_getElem? _ _ g3]
    by_cases hk' : k < (outRows out0).length
    · simp [hk']
    · simp [hk']
  refine ⟨out0, ws, h1, h2, hs1, hl, hl', fun us hus => ?_, fun us us' hus hus' k hkk f => ?_, fun us hus k hkN f => ?_⟩
  · obtain ⟨out, g1, g2, g3⟩ := key us hus
    refine ⟨out, g1, by rw [g2, filterMap_length _ _ g3]; simp, fun r hr => ?_⟩
    rw [g2] at hr
    obtain ⟨i, -, hi⟩ := List.mem_filterMap.mp hr
    exact List.mem_of_getElem? hi
  · rw [hat us hus, hat us' hus', hkk]
  · rw [weightedMean_fin f _ _ hl]
    have hb := mult_unbiased ws hW hs1 pick p2 fun j => f (outRows out0)[j.1]
    have e2 : ∑ j : Fin ws.length, ws[j] * f (outRows out0)[j.1] = ∑ j : Fin (outRows out0).length, ws[j.1] * f (outRows out0)[j] := by
      refine Fintype.sum_equiv (finCongr hl) _ _ fun j => ?_
      simp
    rw [← e2, ← hb]
    apply intervalIntegral.integral_congr_ae
    have : ∀ᵐ x : ℝ, x ≠ 1 := by
      rw [MeasureTheory.ae_iff]
      simp
    filter_upwards [this] with x hx hx2
    rw [Set.uIoc_of_le zero_le_one] at hx2
    have hx1 := lt_of_le_of_ne hx2.2 hx
    rw [hat (Function.update us k x) (fun i => by
      by_cases hik : i = k
      · subst hik; simpa using ⟨hx2.1.le, hx1⟩
      · simpa [Function.update_of_ne hik] using hus i)]
    have hpk := (p2 x hx2.1.le hx1).1
    have hpk' : pick x < (outRows out0).length := by rw [← hl]; exact hpk
    simp only [hkN, if_true, Function.update_self]
    rw [dif_pos hpk, List.getElem?_eq_getElem hpk']
    rfl

end
end Poco

namespace Poco.Demo
open F Spec Classical

/-- The example with a likelihood that is not constant, with systematic resampling. -/
noncomputable def env149 : SamplerEnv 2 Unit Unit := { env114 with resample := .syst }

theorem user149 : UserFns env149 step114 (fun _ => fin 0) (fun _ => [()]) false := ⟨user114.1, user114.2, user114.3⟩

theorem fresh149 : Fresh env149 false start := by
  constructor <;> try rfl
  · exact (fresh true).bounds
  · intro h; cases h

/-- A run of it. -/
theorem run149 : ∃ fuel s', (run env149 rnd fuel (iterationBound 0 1 0.5 true 2 start.nEffective 100 + 1) ⟨100, 0, none⟩ start).2 = .ok s' ∧
    Session env149 false s' ∧ s'.particles.past.x ≠ [] := by
  obtain ⟨fuel, h⟩ := C114_ends env149 step114 (fun _ => fin 0) (fun _ => [()]) false user149 (configured true) proper114 start
    (.fresh fresh149) 0 1 (fun x _ => .inr (bounded114 _)) 0.5 rfl
    (by norm_num) ⟨100, 0, none⟩ (by simp) rnd draws ⟨(reliable true).geo, (reliable true).flow, (reliable true).inv, (reliable true).chol,
      (reliable true).dim, (reliable true).freq, (reliable true).ratio, (reliable true).mult, (reliable true).syst⟩ (fun _ i hi => by
      refine ⟨pt fun _ => ((i * 2 : ℕ) : ℝ), ?_, ?_⟩
      · have hi' : i < 2 := by simpa [env, env114, env149] using hi
        have : i = 0 ∨ i = 1 := by omega
        rcases this with rfl | rfl <;> simp [start, rnd, env, env114, env149, List.range_succ]
      · obtain ⟨l, h, -⟩ := bounded114 (pt fun _ => ((i * 2 : ℕ) : ℝ))
        rw [h]; rfl) (fun h => by cases h)
  obtain ⟨s', hr⟩ := h fuel le_rfl
  refine ⟨fuel, s', hr, .ran rnd _ _ _ (.fresh fresh149) draws hr, ?_⟩
  obtain ⟨H, hH, hR, -⟩ := C60_smc_value user149 proper114 (configured true) (.fresh fresh149) draws hr (by simp)
  obtain ⟨its, hi⟩ := (Session.ran rnd _ _ _ (.fresh fresh149) draws hr : Session env149 false s').inv user149 (configured true)
    (ll := step114) (lp := fun _ => fin 0) (bb := fun _ => [()])
  have : s'.particles.past.logl ≠ [] := by
    rw [hH.1]
    simpa using hR.1
  rw [hi.past] at this ⊢
  simpa [columns] using this

/-- C149 on that run, with trimming. -/
example : ∃ fuel s', (run env149 rnd fuel (iterationBound 0 1 0.5 true 2 start.nEffective 100 + 1) ⟨100, 0, none⟩ start).2 = .ok s' ∧
    ∃ (out0 : PostOut 2 Unit) (ws : List ℝ), posterior env149 (fun _ => 0) 0 PostArgs.default s' = .ok out0 ∧ out0.weights = some (ws.map fin) ∧
      ∀ f : Pt 2 × F × F → ℝ, ∫ u in (0 : ℝ)..1, meanOver f (posterior env149 (fun _ => 0) u { PostArgs.default with resample := true } s')
        = weightedMean f (outRows out0) ws := by
  obtain ⟨fuel, s', h1, h2, h3⟩ := run149
  obtain ⟨out0, ws, k1, k2, -, -, -, -, k3⟩ := C149_systematic user149 proper114 (configured true) h2 h3 rfl (fun _ => 0) PostArgs.default
    (fun _ => ⟨0.99, rfl, by norm_num, by simp [PostArgs.default]⟩) (fun h => by cases h)
  exact ⟨fuel, s', h1, out0, ws, k1 _ _, k2, k3⟩

/-- C149 on the run of `within147`, which has multinomial resampling. -/
example : ∃ fuel s', (run env114 rnd fuel (iterationBound 0 1 0.5 true 2 start.nEffective 100 + 1) ⟨100, 0, none⟩ start).2 = .ok s' ∧
    ∃ (out0 : PostOut 2 Unit) (ws : List ℝ), posterior env114 (fun _ => 0) 0 PostArgs.default s' = .ok out0 ∧ out0.weights = some (ws.map fin) ∧
      0 < (outRows out0).length ∧ ∀ k < (outRows out0).length, ∀ f : Pt 2 × F × F → ℝ,
        ∫ v in (0 : ℝ)..1, valueAt k f (posterior env114 (Function.update (fun _ => 0) k v) 0 { PostArgs.default with resample := true } s')
          = weightedMean f (outRows out0) ws := by
  obtain ⟨fuel, s', h1, h2, -, h4, -⟩ := within147
  have hx : s'.particles.past.x ≠ [] := by
    obtain ⟨its, hi⟩ := h2.inv user114 (configured true) (ll := step114) (lp := fun _ => fin 0) (bb := fun _ => [()])
    rw [hi.past] at h4 ⊢
    simpa [columns] using h4
  obtain ⟨out0, ws, k1, k2, k3, k4, -, -, -, k5⟩ := C149_multinomial user114 proper114 (configured true) h2 hx rfl 0 PostArgs.default
    (fun _ => ⟨0.99, rfl, by norm_num, by simp [PostArgs.default]⟩) (fun h => by cases h)
  refine ⟨fuel, s', h1, out0, ws, k1 _ _, k2, ?_, k5 (fun _ => 0) fun _ => ⟨le_rfl, one_pos⟩⟩
  rw [← k4]
  apply List.length_pos_iff.mpr
  rintro rfl
  simp at k3

end Poco.Demo
