import Verif.Lemmas.Trim
import Mathlib.Tactic.NormNum

/-! # C05-C07: `trim_weights` -/

namespace Poco
open F Spec Classical

theorem pyGet_nat {α : Type*} (l : List α) (i : ℕ) : pyGet? l (i : ℤ) = l[i]? := by
  simp [pyGet?]

/-- The loop started at grid index `i` stops at the largest index `j ≤ i` that meets the target (index 0 does). -/
theorem trimLoop_ok {α : Type*} (samples : List α) (w : List ℝ) (h : IsWeights w) (hl : samples.length = w.length)
    (e : ℝ) (he : e ≤ 1) (bins : ℕ) (i : ℕ) (hi : i < bins) :
    ∃ j ≤ i, trimLoop samples (w.map fin) (fin (ess w)) (fin e) (percentileGrid bins) (i : ℤ) =
        .ok (((samples.zip w).filter fun q => decide (Spec.percentile w (gridPoint bins j) ≤ q.2)).map (·.1),
          (keptAt w bins j).map fun x => fin (x / (keptAt w bins j).sum)) ∧
      e * ess w ≤ ess (keptAt w bins j) ∧
      ∀ k, j < k → k ≤ i → ess (keptAt w bins k) < e * ess w := by
  have hT := ess_pos h
  induction i with
  | zero =>
    refine ⟨0, le_refl _, ?_, ?_, ?_⟩
    · rw [trimLoop_step samples w h hl e _ hT bins 0 hi _ (by rw [pyGet_nat, percentileGrid_get bins 0 hi])]
      rw [if_pos]
      rw [keptAt_zero w h.ne_nil, div_self hT.ne']; exact he
    · rw [keptAt_zero w h.ne_nil]; nlinarith
    · intro k h1 h2; omega
  | succ i ih =>
    have hstep := trimLoop_step samples w h hl e _ hT bins (i + 1) hi ((i + 1 : ℕ) : ℤ)
      (by rw [pyGet_nat, percentileGrid_get bins (i + 1) hi])
    by_cases hc : e ≤ ess (keptAt w bins (i + 1)) / ess w
    · rw [if_pos hc] at hstep
      refine ⟨i + 1, le_refl _, hstep, ?_, ?_⟩
      · rwa [le_div_iff₀ hT] at hc
      · intro k h1 h2; omega
    · rw [if_neg hc] at hstep
      have e1 : (((i + 1 : ℕ) : ℤ) - 1) = (i : ℤ) := by push_cast; ring
      rw [e1] at hstep
      obtain ⟨j, hj, h1, h2, h3⟩ := ih (by omega)
      refine ⟨j, by omega, hstep.trans h1, h2, ?_⟩
      intro k hk1 hk2
      rcases Nat.lt_or_ge i k with hk | hk
      · have : k = i + 1 := by omega
        subst this
        rw [le_div_iff₀ hT] at hc
        exact not_le.mp hc
      · exact h3 k hk1 hk

theorem trimWeights_ok {α : Type*} (samples : List α) (w : List ℝ) (h : IsWeights w) (hl : samples.length = w.length)
    (e : ℝ) (he : e ≤ 1) (bins : ℕ) (hb : 1 ≤ bins) :
    let wn := w.map (· / w.sum)
    ∃ j < bins, trimWeights samples (w.map fin) (fin e) bins = .ok
        { samples := ((samples.zip wn).filter fun q => decide (Spec.percentile wn (gridPoint bins j) ≤ q.2)).map (·.1)
          weights := (keptAt wn bins j).map fun x => fin (x / (keptAt wn bins j).sum)
          callerWeights := wn.map fin } ∧
      e * ess wn ≤ ess (keptAt wn bins j) ∧
      ∀ k, j < k → k < bins → ess (keptAt wn bins k) < e * ess wn := by
  intro wn
  have hwn : IsWeights wn := h.normalize
  have hln : samples.length = wn.length := by simp [wn, hl]
  obtain ⟨j, hj, h1, h2, h3⟩ := trimLoop_ok samples wn hwn hln e he bins (bins - 1) (by omega)
  refine ⟨j, by omega, ?_, h2, fun k hk1 hk2 => h3 k hk1 (by omega)⟩
  have e1 : ((bins : ℤ) - 1) = ((bins - 1 : ℕ) : ℤ) := by omega
  have e2 : invSumSq (wn.map fin) = fin (ess wn) := by
    rw [invSumSq_fin _ hwn.2.ne']
    congr 1
    unfold ess
    rw [show wn.sum = 1 from sum_normalized h.2.ne']; norm_num
  simp only [trimWeights, normalize_fin w h.2.ne', bind, Except.bind, pure, Except.pure]
  rw [e1]
  have e3 : w.map (fun x => x / w.sum) = wn := rfl
  rw [e3, e2, h1]

theorem ess_div (w : List ℝ) (c : ℝ) (hc : c ≠ 0) : ess (w.map (· / c)) = ess w := by
  have : (w.map (· / c)) = w.map (c⁻¹ * ·) := by
    apply List.map_congr_left; intro x _; rw [div_eq_inv_mul]
  rw [this, ess_scale _ (inv_ne_zero hc)]

theorem zip_map_div (samples : List α) (w : List ℝ) (c t : ℝ) :
    ((samples.zip (w.map (· / c))).filter fun q => decide (t ≤ q.2))
      = ((samples.zip w).filter fun q => decide (t ≤ q.2 / c)).map fun q => (q.1, q.2 / c) := by
  rw [List.zip_map_right, List.filter_map]
  rfl

/-- **C05.** For a target fraction `ess ≤ 1` and at least one grid point, `trim_weights` returns (it does not loop
forever or fail): it keeps some (sample, weight) pairs in order; the returned weights are those pairs' weights divided
by their sum, so they are non-negative and sum to one; their ESS is at least `ess` times the ESS of all the weights;
and the caller's array holds the normalised weights. -/
theorem C05_trim {α : Type*} (samples : List α) (w : List ℝ) (h : IsWeights w) (hl : samples.length = w.length)
    (e : ℝ) (he : e ≤ 1) (bins : ℕ) (hb : 1 ≤ bins) :
    ∃ r, trimWeights samples (w.map fin) (fin e) bins = .ok r ∧
      ∃ kept : List (α × ℝ), kept.Sublist (samples.zip w) ∧
        IsWeights (kept.map (·.2)) ∧
        r.samples = kept.map (·.1) ∧
        r.weights = kept.map (fun q => fin (q.2 / (kept.map (·.2)).sum)) ∧
        (kept.map (fun q => q.2 / (kept.map (·.2)).sum)).sum = 1 ∧
        e * ess w ≤ ess (kept.map (·.2)) ∧
        r.callerWeights = w.map (fun x => fin (x / w.sum)) := by
  obtain ⟨j, hj, h1, h2, -⟩ := trimWeights_ok samples w h hl e he bins hb
  have hs := h.2.ne'
  have hln : samples.length = (w.map (· / w.sum)).length := by simp [hl]
  set wn := w.map (· / w.sum) with hwn
  set t := Spec.percentile wn (gridPoint bins j) with ht
  refine ⟨_, h1, (samples.zip w).filter (fun q => decide (t ≤ q.2 / w.sum)), List.filter_sublist, ?_⟩
  set kept := (samples.zip w).filter (fun q => decide (t ≤ q.2 / w.sum)) with hk
  have hkept : (keptAt wn bins j) = (kept.map (·.2)).map (· / w.sum) := by
    have hz := zip_filter_snd (fun x => decide (t ≤ x)) samples wn hln
    rw [hwn, zip_map_div] at hz
    unfold keptAt
    rw [← ht, ← hz]
    simp [hk, Function.comp_def]
  have hpos := keptAt_sum_pos wn h.normalize bins j hj
  rw [hkept, list_sum_map_div] at hpos
  have hpos' : 0 < (kept.map (·.2)).sum := by
    have := (div_pos_iff_of_pos_right h.2).mp hpos; exact this
  refine ⟨⟨?_, hpos'⟩, ?_, ?_, ?_, ?_, ?_⟩
  · intro x hx
    obtain ⟨q, hq, rfl⟩ := List.mem_map.mp hx
    have := (List.mem_filter.mp hq).1
    exact h.1 _ (List.of_mem_zip (show (q.1, q.2) ∈ _ from this)).2
  · simp only [hwn]
    rw [zip_map_div]
    simp [hk, Function.comp_def]
  · simp only [hkept, List.map_map, Function.comp_def]
    have := list_sum_map_div w.sum (kept.map (·.2))
    simp only [List.map_map, Function.comp_def] at this
    rw [this]
    apply List.map_congr_left
    intro q _
    rw [div_div_div_cancel_right₀ hs]
  · have := sum_normalized hpos'.ne'
    simpa [Function.comp_def] using this
  · rw [hkept, ess_div _ _ hs, ess_div _ _ hs] at h2
    exact h2
  · simp [hwn]

example : IsWeights [1, 2, 0, 5] ∧ (["a", "b", "c", "d"]).length = ([1, 2, 0, 5] : List ℝ).length ∧ (0.99 : ℝ) ≤ 1 :=
  ⟨⟨by simp, by norm_num⟩, rfl, by norm_num⟩

/-- **C06.** The result of `trim_weights` is determined by one threshold, the percentile of the normalised weights
at some grid index `i`: kept are exactly the samples with normalised weight at or above it, in order and paired with
their own weights; one of the heaviest samples is kept; and every larger grid percentile misses the ESS target. -/
theorem C06_trim_threshold {α : Type*} (samples : List α) (w : List ℝ) (h : IsWeights w)
    (hl : samples.length = w.length) (e : ℝ) (he : e ≤ 1) (bins : ℕ) (hb : 1 ≤ bins) :
    let wn := w.map (· / w.sum)
    ∃ r i, i < bins ∧ trimWeights samples (w.map fin) (fin e) bins = .ok r ∧
      r.samples = ((samples.zip wn).filter
        fun q => decide (Spec.percentile wn (gridPoint bins i) ≤ q.2)).map (·.1) ∧
      r.weights = (keptAt wn bins i).map (fun x => fin (x / (keptAt wn bins i).sum)) ∧
      ((samples.zip wn).filter fun q => decide (Spec.percentile wn (gridPoint bins i) ≤ q.2)).map (·.2)
        = keptAt wn bins i ∧
      (∃ x ∈ keptAt wn bins i, ∀ y ∈ wn, y ≤ x) ∧
      (∀ k, i < k → k < bins → ess (keptAt wn bins k) < e * ess wn) := by
  intro wn
  obtain ⟨j, hj, h1, h2, h3⟩ := trimWeights_ok samples w h hl e he bins hb
  refine ⟨_, j, hj, h1, rfl, rfl, ?_, ?_, h3⟩
  · exact zip_filter_snd (fun x => decide (Spec.percentile wn (gridPoint bins j) ≤ x)) samples wn (by simp [wn, hl])
  · have hne : wn ≠ [] := h.normalize.ne_nil
    obtain ⟨m, -, hm, hmax⟩ := max_fin wn hne
    obtain ⟨g0, g1⟩ := gridPoint_range bins j hj
    obtain ⟨x, hx, hle⟩ := percentile_le_mem wn hne _ g0 g1
    exact ⟨m, List.mem_filter.mpr ⟨hm, by simpa using hle.trans (hmax x hx)⟩, hmax⟩

example : IsWeights [1, 2, 0, 5] ∧ (["a", "b", "c", "d"]).length = ([1, 2, 0, 5] : List ℝ).length ∧ (0.99 : ℝ) ≤ 1 :=
  ⟨⟨by simp, by norm_num⟩, rfl, by norm_num⟩

/-! ### C07 -/

theorem trimLoop_error {α : Type*} (samples : List α) (w : List ℝ) (h : IsWeights w) (hl : samples.length = w.length)
    (e : ℝ) (he : 1 < e) (bins : ℕ) (n : ℕ) : ∀ i : ℤ, i < bins → (i + bins + 1).toNat ≤ n →
    trimLoop samples (w.map fin) (fin (ess w)) (fin e) (percentileGrid bins) i = .error .indexError := by
  have hT := ess_pos h
  have hgl : (percentileGrid bins).length = bins := by simp [percentileGrid]
  induction n with
  | zero =>
    intro i h1 h2
    have : pyGet? (percentileGrid bins) i = none := by
      unfold pyGet?
      rw [if_neg (by omega), if_neg (by rw [hgl]; omega)]
    rw [trimLoop]
    split
    · rfl
    · rename_i heq; rw [this] at heq; cases heq
  | succ n ih =>
    intro i h1 h2
    by_cases hlow : i + bins < 0
    · have : pyGet? (percentileGrid bins) i = none := by
        unfold pyGet?
        rw [if_neg (by omega), if_neg (by rw [hgl]; omega)]
      rw [trimLoop]
      split
      · rfl
      · rename_i heq; rw [this] at heq; cases heq
    · have : ∃ k < bins, pyGet? (percentileGrid bins) i = some (gridPoint bins k) := by
        unfold pyGet?
        by_cases h0 : 0 ≤ i
        · exact ⟨i.toNat, by omega, by rw [if_pos h0, percentileGrid_get _ _ (by omega)]⟩
        · refine ⟨(i + bins).toNat, by omega, ?_⟩
          rw [if_neg h0, if_pos (by rw [hgl]; omega), hgl, percentileGrid_get _ _ (by omega)]
      obtain ⟨k, hk, hz⟩ := this
      rw [trimLoop_step samples w h hl e _ hT bins k hk i hz, if_neg]
      · exact ih (i - 1) (by omega) (by omega)
      · have h3 := ess_filter_le w h _ (keptAt_sum_pos w h bins k hk)
        have h4 : ess (keptAt w bins k) / ess w ≤ 1 := (div_le_one hT).mpr h3
        linarith

/-- **C07.** (a) Dropping every weight below any threshold never raises the ESS.  (b) So for `ess > 1` no grid point
can satisfy the test, and `trim_weights` raises IndexError — for every weight vector, every number of bins. -/
theorem C07_trim_unreachable {α : Type*} (samples : List α) (w : List ℝ) (h : IsWeights w)
    (hl : samples.length = w.length) :
    (∀ t : ℝ, 0 < (w.filter fun x => decide (t ≤ x)).sum → ess (w.filter fun x => decide (t ≤ x)) ≤ ess w) ∧
    (∀ (e : ℝ) (bins : ℕ), 1 < e → trimWeights samples (w.map fin) (fin e) bins = .error .indexError) := by
  refine ⟨fun t ht => ess_filter_le w h t ht, fun e bins he => ?_⟩
  have hwn : IsWeights (w.map (· / w.sum)) := h.normalize
  set wn := w.map (· / w.sum) with hwnd
  have e2 : invSumSq (wn.map fin) = fin (ess wn) := by
    rw [invSumSq_fin _ hwn.2.ne']
    congr 1
    unfold ess
    rw [show wn.sum = 1 from sum_normalized h.2.ne']; norm_num
  have := trimLoop_error samples wn hwn (by simp [wn, hl]) e he bins _ ((bins : ℤ) - 1) (by omega) (le_refl _)
  simp only [trimWeights, normalize_fin w h.2.ne', bind, Except.bind, pure, Except.pure, ← hwnd]
  rw [e2, this]

example : IsWeights [1, 2, 0, 5] ∧ (["a", "b", "c", "d"]).length = ([1, 2, 0, 5] : List ℝ).length ∧ (1 : ℝ) < 1.5 :=
  ⟨⟨by simp, by norm_num⟩, rfl, by norm_num⟩

end Poco
