import Verif.Lemmas.Resample
import Mathlib.MeasureTheory.Integral.IntervalIntegral.Basic
import Mathlib.Tactic.NormNum

/-! # C08-C12: resampling -/

namespace Poco
open F Spec Classical

/-- The number of times index `j` appears in a successful result. -/
noncomputable def occurrences (r : Except PyErr (List ℕ)) (j : ℕ) : ℕ :=
  match r with
  | .ok l => l.count j
  | .error _ => 0

theorem systematic_ok (size : ℕ) (w : List ℝ) (h : IsWeights w) (hn : w.sum = 1 ∨ sqrtEps < |w.sum - 1|)
    (u : ℝ) (h1 : u < 1) :
    ∃ l, systematicResample size (w.map fin) u = .ok l ∧
      List.Forall₂ (FallsOn (w.map (· / w.sum))) (posReal size u) l := by
  have hw := sysWeights_fin w h.2.ne' hn
  have hv := h.normalize
  rcases systematic_core size (w.map fin) _ hv.ne_nil hw u with hok | ⟨-, p, hp, hbad⟩
  · exact hok
  · exfalso
    have hl : 0 < (w.map (· / w.sum)).length := List.length_pos_iff.mpr hv.ne_nil
    have := hbad ((w.map (· / w.sum)).length - 1) (by omega)
    rw [show (w.map (· / w.sum)).length - 1 + 1 = (w.map (· / w.sum)).length by omega, cum_length,
      sum_normalized h.2.ne'] at this
    have := posReal_lt_one h1 hp
    linarith

/-- Multiplicity in terms of `cntLe`. -/
theorem count_systematic (size : ℕ) (v : List ℝ) (hv : ∀ x ∈ v, 0 ≤ x) (u : ℝ) (h0 : 0 ≤ u) (l : List ℕ)
    (hf : List.Forall₂ (FallsOn v) (posReal size u) l) (j : ℕ) (hj : j < v.length) :
    (l.count j : ℝ) = cntLe size (size * cum v (j + 1) - u) -
      (if j = 0 then 0 else (cntLe size (size * cum v j - u) : ℝ)) := by
  rw [count_of_forall₂ v j hf]
  unfold posReal
  rw [List.countP_map]
  by_cases hs : size = 0
  · subst hs; simp [cntLe]
  have hsp : (0 : ℝ) < size := by exact_mod_cast Nat.pos_of_ne_zero hs
  by_cases hj0 : j = 0
  · subst hj0
    rw [if_pos rfl, sub_zero, Nat.cast_inj]
    unfold cntLe
    apply List.countP_congr
    intro i _
    simp only [Function.comp, decide_eq_true_eq]
    unfold FallsOn
    rw [div_le_iff₀ hsp]
    constructor
    · rintro ⟨-, h, -⟩; linarith
    · intro h; exact ⟨hj, by linarith, fun k hk => by omega⟩
  · rw [if_neg hj0, ← countP_and size (a := size * cum v j - u) (b := size * cum v (j + 1) - u)
      (by have := cum_mono hv (Nat.le_succ j); nlinarith), Nat.cast_inj]
    apply List.countP_congr
    intro i _
    simp only [Function.comp, decide_eq_true_eq]
    unfold FallsOn
    rw [div_le_iff₀ hsp]
    constructor
    · rintro ⟨-, h, h2⟩
      have := h2 (j - 1) (by omega)
      rw [show j - 1 + 1 = j by omega, lt_div_iff₀ hsp] at this
      constructor <;> linarith
    · rintro ⟨h1, h2⟩
      refine ⟨hj, by linarith, fun k hk => ?_⟩
      rw [lt_div_iff₀ hsp]
      have := cum_mono hv (show k + 1 ≤ j by omega)
      nlinarith

/-- **C08.** For weights that the function normalises (or that already sum to one) and a draw `u` in `[0,1)`,
`systematic_resample` returns exactly `size` indices, all valid, in non-decreasing order; index `j` occurs at most one
time more or less than `size · w[j]/Σw`, and strictly less than one when the draw is not exactly 0. -/
theorem C08_systematic (size : ℕ) (w : List ℝ) (h : IsWeights w) (hn : w.sum = 1 ∨ sqrtEps < |w.sum - 1|)
    (u : ℝ) (h0 : 0 ≤ u) (h1 : u < 1) :
    ∃ l, systematicResample size (w.map fin) u = .ok l ∧ l.length = size ∧ (∀ j ∈ l, j < w.length) ∧
      l.Pairwise (· ≤ ·) ∧
      (∀ (j : ℕ) (hj : j < w.length), |(l.count j : ℝ) - size * (w[j] / w.sum)| ≤ 1) ∧
      (0 < u → ∀ (j : ℕ) (hj : j < w.length), |(l.count j : ℝ) - size * (w[j] / w.sum)| < 1) := by
  obtain ⟨l, hl, hf⟩ := systematic_ok size w h hn u h1
  have hv := h.normalize
  have hlen : l.length = size := by rw [← hf.length_eq]; simp [posReal]
  have hcj : ∀ (j : ℕ) (hj : j < w.length), size * cum (w.map (· / w.sum)) (j + 1) - u
      = size * cum (w.map (· / w.sum)) j - u + size * (w[j] / w.sum) := by
    intro j hj
    rw [cum_succ _ j (by simpa using hj)]
    simp; ring
  have hs0 : (0 : ℝ) ≤ size := by positivity
  have hrange : ∀ j, -1 < size * cum (w.map (· / w.sum)) j - u ∧ size * cum (w.map (· / w.sum)) j - u ≤ size - u := by
    intro j
    have a := cum_nonneg hv.1 j
    have b := cum_le_sum hv.1 j
    rw [sum_normalized h.2.ne'] at b
    constructor <;> nlinarith
  refine ⟨l, hl, hlen, ?_, ?_, ?_, ?_⟩
  · intro j hj
    obtain ⟨i, hi, rfl⟩ := List.mem_iff_getElem.mp hj
    have := (List.forall₂_iff_get.mp hf).2 i (by rw [hf.length_eq]; exact hi) hi
    simpa using this.1
  · rw [List.pairwise_iff_getElem]
    intro i j hi hj hij
    have a := (List.forall₂_iff_get.mp hf).2 i (by rw [hf.length_eq]; exact hi) hi
    have b := (List.forall₂_iff_get.mp hf).2 j (by rw [hf.length_eq]; exact hj) hj
    have c := (List.pairwise_iff_getElem.mp (posReal_sorted size u)) i j (by rw [hf.length_eq]; exact hi)
      (by rw [hf.length_eq]; exact hj) hij
    exact Spec.FallsOn.mono a b c
  · intro j hj
    rw [count_systematic size _ hv.1 u h0 l hf j (by simpa using hj)]
    have hc := hcj j hj
    obtain ⟨b1, b2⟩ := cntLe_bounds' size (hrange (j + 1)).1 ((hrange (j + 1)).2.trans (by linarith))
    by_cases hj0 : j = 0
    · subst hj0
      rw [if_pos rfl, sub_zero]
      rw [cum_zero] at hc
      rw [abs_le]
      constructor <;> linarith
    · rw [if_neg hj0]
      obtain ⟨a1, a2⟩ := cntLe_bounds' size (hrange j).1 ((hrange j).2.trans (by linarith))
      rw [abs_le]
      constructor <;> linarith
  · intro hu j hj
    rw [count_systematic size _ hv.1 u h0 l hf j (by simpa using hj)]
    have hc := hcj j hj
    obtain ⟨b1, b2⟩ := cntLe_bounds size (hrange (j + 1)).1 (lt_of_le_of_lt (hrange (j + 1)).2 (by linarith))
    by_cases hj0 : j = 0
    · subst hj0
      rw [if_pos rfl, sub_zero]
      rw [cum_zero] at hc
      rw [abs_lt]
      constructor <;> linarith
    · rw [if_neg hj0]
      obtain ⟨a1, a2⟩ := cntLe_bounds size (hrange j).1 (lt_of_le_of_lt (hrange j).2 (by linarith))
      rw [abs_lt]
      constructor <;> linarith

example : IsWeights [1, 2, 0, 5] ∧ (([1, 2, 0, 5] : List ℝ).sum = 1 ∨ sqrtEps < |([1, 2, 0, 5] : List ℝ).sum - 1|) ∧
    (0 : ℝ) ≤ 1 / 3 ∧ (1 / 3 : ℝ) < 1 := by
  refine ⟨⟨by simp, by norm_num⟩, Or.inr ?_, by norm_num, by norm_num⟩
  unfold sqrtEps; norm_num [abs_of_pos]

/-! ### C09 -/

theorem integral_indicator_Ioc (a b : ℝ) (n : ℕ) (ha : 0 ≤ a) (hab : a ≤ b) (hb : b ≤ n) :
    ∫ x in (0 : ℝ)..n, (if a < x ∧ x ≤ b then (1 : ℝ) else 0) = b - a := by
  have hn : (0 : ℝ) ≤ n := by positivity
  rw [intervalIntegral.integral_of_le hn]
  have : (fun x : ℝ => if a < x ∧ x ≤ b then (1 : ℝ) else 0) = (Set.Ioc a b).indicator (fun _ => (1 : ℝ)) := by
    funext x
    simp only [Set.indicator, Set.mem_Ioc]
  rw [this, MeasureTheory.setIntegral_indicator measurableSet_Ioc]
  have hi : Set.Ioc 0 (n : ℝ) ∩ Set.Ioc a b = Set.Ioc a b := by
    rw [Set.inter_eq_right]
    exact Set.Ioc_subset_Ioc ha hb
  rw [hi]
  simp [hab]

theorem intervalIntegrable_Ioc (a b c d : ℝ) :
    IntervalIntegrable (fun x : ℝ => if a < x ∧ x ≤ b then (1 : ℝ) else 0) MeasureTheory.volume c d := by
  have : (fun x : ℝ => if a < x ∧ x ≤ b then (1 : ℝ) else 0) = (Set.Ioc a b).indicator (fun _ => (1 : ℝ)) := by
    funext x
    simp only [Set.indicator, Set.mem_Ioc]
  rw [this]
  have hi : IntervalIntegrable (fun _ : ℝ => (1 : ℝ)) MeasureTheory.volume c d := intervalIntegrable_const
  rw [intervalIntegrable_iff] at hi ⊢
  exact hi.indicator measurableSet_Ioc

theorem countP_range_sum (n : ℕ) (P : ℕ → Prop) [DecidablePred P] :
    ((List.range n).countP (fun i => decide (P i)) : ℝ) = ∑ i ∈ Finset.range n, (if P i then (1 : ℝ) else 0) := by
  induction n with
  | zero => simp
  | succ m ih =>
    rw [List.range_succ, List.countP_append, Finset.sum_range_succ]
    push_cast
    rw [ih]
    congr 1
    by_cases hc : P m <;> simp [hc]

/-- **C09.** For weights that sum to one, averaging over the single uniform draw, index `j` is returned exactly
`size · w[j]` times. -/
theorem C09_unbiased (size : ℕ) (hsz : 1 ≤ size) (w : List ℝ) (h : IsWeights w) (hn : w.sum = 1) (j : ℕ)
    (hj : j < w.length) :
    ∫ u in (0 : ℝ)..1, (occurrences (systematicResample size (w.map fin) u) j : ℝ) = size * w[j] := by
  have hsp : (0 : ℝ) < size := by exact_mod_cast hsz
  set a := size * cum w j with ha
  set b := size * cum w (j + 1) with hb
  have key : ∀ u : ℝ, 0 < u → u < 1 → (occurrences (systematicResample size (w.map fin) u) j : ℝ)
      = ∑ i ∈ Finset.range size, (if a < u + i ∧ u + i ≤ b then (1 : ℝ) else 0) := by
    intro u h0 h1
    obtain ⟨l, hl, hf⟩ := systematic_ok size w h (Or.inl hn) u h1
    have hid : w.map (· / w.sum) = w := by rw [hn]; simp
    rw [hid] at hf
    rw [hl]
    simp only [occurrences]
    rw [count_of_forall₂ w j hf]
    unfold posReal
    rw [List.countP_map]
    have hc : ∀ i : ℕ, ((fun p => decide (FallsOn w p j)) ∘ fun i : ℕ => (u + i) / size) i
        = decide (a < u + i ∧ u + i ≤ b) := by
      intro i
      have hp : 0 < (u + i) / (size : ℝ) := by positivity
      simp only [Function.comp, decide_eq_decide]
      rw [fallsOn_iff h.1 hp, lt_div_iff₀ hsp, div_le_iff₀ hsp, ha, hb]
      simp [hj, mul_comm]
    rw [List.countP_congr (fun i _ => by rw [hc i])]
    exact countP_range_sum size _
  have hint : ∫ u in (0 : ℝ)..1, (occurrences (systematicResample size (w.map fin) u) j : ℝ)
      = ∫ u in (0 : ℝ)..1, ∑ i ∈ Finset.range size, (if a < u + i ∧ u + i ≤ b then (1 : ℝ) else 0) := by
    apply intervalIntegral.integral_congr_ae
    have : ∀ᵐ x : ℝ, x ≠ 1 := by
      rw [MeasureTheory.ae_iff]
      simp
    filter_upwards [this] with x hx hx2
    rw [Set.uIoc_of_le zero_le_one] at hx2
    exact key x hx2.1 (lt_of_le_of_ne hx2.2 hx)
  rw [hint, intervalIntegral.integral_finsetSum]
  · have hshift : ∀ i ∈ Finset.range size,
        ∫ u in (0 : ℝ)..1, (if a < u + i ∧ u + i ≤ b then (1 : ℝ) else 0)
          = ∫ x in ((i : ℕ) : ℝ)..((i + 1 : ℕ) : ℝ), (if a < x ∧ x ≤ b then (1 : ℝ) else 0) := by
      intro i _
      have := intervalIntegral.integral_comp_add_right (a := (0 : ℝ)) (b := 1)
        (fun x : ℝ => if a < x ∧ x ≤ b then (1 : ℝ) else 0) (i : ℝ)
      rw [this]
      congr 1 <;> push_cast <;> ring
    rw [Finset.sum_congr rfl hshift]
    rw [intervalIntegral.sum_integral_adjacent_intervals (a := fun i : ℕ => (i : ℝ))
      (fun k _ => intervalIntegrable_Ioc a b _ _)]
    have hcu := cum_succ w j hj
    have hm := cum_mono h.1 (Nat.le_succ j)
    have hle := cum_le_sum h.1 (j + 1)
    rw [hn] at hle
    simp only [Nat.cast_zero]
    rw [integral_indicator_Ioc a b size (mul_nonneg hsp.le (cum_nonneg h.1 j))
      (mul_le_mul_of_nonneg_left hm hsp.le) (by rw [hb]; nlinarith), ha, hb, hcu]
    ring
  · intro i _
    have := (intervalIntegrable_Ioc (a - i) (b - i) 0 1)
    refine this.congr ?_
    intro x _
    simp only [sub_lt_iff_lt_add, le_sub_iff_add_le]

/-- **C09** for weights that do not sum to one (and are therefore normalised first): averaging over the single uniform draw,
index `j` is returned exactly `size · w[j]/Σw` times. -/
theorem C09_unbiased_normalised (size : ℕ) (hsz : 1 ≤ size) (w : List ℝ) (h : IsWeights w)
    (hn : w.sum = 1 ∨ sqrtEps < |w.sum - 1|) (j : ℕ) (hj : j < w.length) :
    ∫ u in (0 : ℝ)..1, (occurrences (systematicResample size (w.map fin) u) j : ℝ) = size * (w[j] / w.sum) := by
  have hv := h.normalize
  have hs := sum_normalized h.2.ne'
  have e : ∀ u, systematicResample size (w.map fin) u = systematicResample size ((w.map (· / w.sum)).map fin) u := by
    intro u
    have h1 : sysWeights ((w.map (· / w.sum)).map fin) = (w.map (· / w.sum)).map fin :=
      sysWeights_near _ (by rw [hs]; unfold sqrtEps; norm_num)
    unfold systematicResample
    rw [sysWeights_fin w h.2.ne' hn, h1]
  simp only [e]
  rw [C09_unbiased size hsz (w.map (· / w.sum)) hv hs j (by simpa using hj)]
  simp

/-- Weights 1 and 3: the second index is returned three times out of four on average. -/
example : ∫ u in (0 : ℝ)..1, (occurrences (systematicResample 4 (([1, 3] : List ℝ).map fin) u) 1 : ℝ) = 3 := by
  rw [C09_unbiased_normalised 4 (by norm_num) [1, 3] ⟨by simp, by norm_num⟩ (Or.inr (by unfold sqrtEps; norm_num)) 1 (by simp)]
  norm_num

example : (1 ≤ 3) ∧ IsWeights [1 / 2, 0, 1 / 2] ∧ ([1 / 2, 0, 1 / 2] : List ℝ).sum = 1 ∧
    1 < ([1 / 2, 0, 1 / 2] : List ℝ).length :=
  ⟨by norm_num, ⟨by simp, by norm_num⟩, by norm_num, by simp⟩

/-! ### C10 -/

/-- **C10** (partial: the draw must be non-zero, or particle 0 must have positive weight).  Whatever the sum of the
weights, a zero-weight particle is never returned.  Missing: the draw `u = 0`, see `C10_zero_weight_selected`. -/
theorem C10_no_zero_weight_partial (size : ℕ) (w : List ℝ) (h : IsWeights w) (u : ℝ) (h0 : 0 ≤ u)
    (hx : 0 < u ∨ ∃ x, w[0]? = some x ∧ 0 < x) (l : List ℕ)
    (hl : systematicResample size (w.map fin) u = .ok l) :
    ∀ j ∈ l, ∃ x, w[j]? = some x ∧ 0 < x := by
  have main : ∀ v : List ℝ, IsWeights v → (0 < u ∨ ∃ x, v[0]? = some x ∧ 0 < x) → sysWeights (w.map fin) = v.map fin →
      ∀ j ∈ l, ∃ x, v[j]? = some x ∧ 0 < x := by
    intro v hv hx hw j hj
    rcases systematic_core size (w.map fin) v hv.ne_nil hw u with ⟨l', hl', hf⟩ | ⟨hl', -⟩
    · rw [hl] at hl'
      simp only [Except.ok.injEq] at hl'
      subst hl'
      obtain ⟨i, hi, rfl⟩ := List.mem_iff_getElem.mp hj
      have hi' : i < (posReal size u).length := by rw [hf.length_eq]; exact hi
      have hF := (List.forall₂_iff_get.mp hf).2 i hi' hi
      simp only [List.get_eq_getElem] at hF
      obtain ⟨f1, f2, f3⟩ := hF
      refine ⟨v[l[i]], List.getElem?_eq_getElem f1, ?_⟩
      by_contra hc
      have hz : v[l[i]] = 0 := le_antisymm (not_lt.mp hc) (hv.1 _ (List.getElem_mem f1))
      rw [cum_succ v _ f1, hz, add_zero] at f2
      rcases Nat.eq_zero_or_pos l[i] with he | he
      · rw [he, cum_zero] at f2
        rcases hx with hx | ⟨x, hx1, hx2⟩
        · have := posReal_pos hx (List.getElem_mem hi')
          linarith
        · rw [← he, List.getElem?_eq_getElem f1] at hx1
          simp only [Option.some.injEq] at hx1
          linarith
      · have := f3 (l[i] - 1) (by omega)
        rw [show l[i] - 1 + 1 = l[i] by omega] at this
        linarith
    · rw [hl] at hl'; cases hl'
  by_cases hn : |w.sum - 1| ≤ sqrtEps
  · exact main w h hx (sysWeights_near w hn)
  · have := main _ h.normalize (by
      rcases hx with hx | ⟨x, h1, h2⟩
      · exact Or.inl hx
      · refine Or.inr ⟨x / w.sum, ?_, div_pos h2 h.2⟩
        rw [List.getElem?_map, h1]; rfl) (sysWeights_fin w h.2.ne' (Or.inr (not_le.mp hn)))
    intro j hj
    obtain ⟨y, hy1, hy2⟩ := this j hj
    rw [List.getElem?_map] at hy1
    cases hw : w[j]? with
    | none => rw [hw] at hy1; simp at hy1
    | some x =>
      rw [hw] at hy1
      simp only [Option.map_some, Option.some.injEq] at hy1
      refine ⟨x, rfl, ?_⟩
      rw [← hy1] at hy2
      exact (div_pos_iff_of_pos_right h.2).mp hy2

example : IsWeights [0, 2, 0, 5] ∧ (0 : ℝ) ≤ 1 / 3 ∧ ((0 : ℝ) < 1 / 3 ∨ ∃ x, ([0, 2, 0, 5] : List ℝ)[0]? = some x ∧ 0 < x) :=
  ⟨⟨by simp, by norm_num⟩, by norm_num, Or.inl (by norm_num)⟩

/-- **C10 is false as stated**: with the draw `u = 0` (which `np.random.random()` can return) a zero-weight particle at
position 0 is selected. -/
theorem C10_zero_weight_selected :
    systematicResample 1 (([0, 1] : List ℝ).map fin) 0 = .ok [0] := by
  have hw : sysWeights (([0, 1] : List ℝ).map fin) = ([0, 1] : List ℝ).map fin :=
    sysWeights_near _ (by unfold sqrtEps; norm_num)
  rcases systematic_core 1 _ [0, 1] (by simp) hw 0 with ⟨l, hl, hf⟩ | ⟨hl, p, hp, hb⟩
  · rw [hl]
    simp only [posReal, List.range_one, List.map_cons, List.map_nil, Nat.cast_zero, add_zero, zero_div] at hf
    cases hf with
    | cons h1 h2 =>
      cases h2
      rename_i j
      have : j = 0 := by
        by_contra hc
        have := h1.2.2 0 (by omega)
        simp [cum] at this
      rw [this]
  · exfalso
    have := hb 1 (by simp)
    simp [posReal] at hp
    subst hp
    simp [cum] at this
    linarith

/-! ### C11 -/

/-- **C11** (partial).  `systematic_resample` returns (no IndexError) whenever the total weight is at least one, or is
off by more than the renormalisation tolerance.  Missing: totals in `[1 - 2⁻²⁶, 1)`, see `C11_index_error`. -/
theorem C11_no_index_error_partial (size : ℕ) (w : List ℝ) (h : IsWeights w)
    (hn : 1 ≤ w.sum ∨ sqrtEps < |w.sum - 1|) (u : ℝ) (h1 : u < 1) :
    ∃ l, systematicResample size (w.map fin) u = .ok l ∧ l.length = size := by
  by_cases hx : w.sum = 1 ∨ sqrtEps < |w.sum - 1|
  · obtain ⟨l, hl, hf⟩ := systematic_ok size w h hx u h1
    exact ⟨l, hl, by rw [← hf.length_eq]; simp [posReal]⟩
  · push Not at hx
    have h1' : 1 ≤ w.sum := hn.resolve_right (not_lt.mpr hx.2)
    rcases systematic_core size (w.map fin) w h.ne_nil (sysWeights_near w hx.2) u with ⟨l, hl, hf⟩ | ⟨-, p, hp, hbad⟩
    · exact ⟨l, hl, by rw [← hf.length_eq]; simp [posReal]⟩
    · exfalso
      have hl : 0 < w.length := List.length_pos_iff.mpr h.ne_nil
      have := hbad (w.length - 1) (by omega)
      rw [show w.length - 1 + 1 = w.length by omega, cum_length] at this
      have := posReal_lt_one h1 hp
      linarith

example : IsWeights [1, 2, 0, 5] ∧ (1 ≤ ([1, 2, 0, 5] : List ℝ).sum ∨ sqrtEps < |([1, 2, 0, 5] : List ℝ).sum - 1|) ∧
    (1 / 3 : ℝ) < 1 := ⟨⟨by simp, by norm_num⟩, Or.inl (by norm_num), by norm_num⟩

/-- **C11 is false as stated**: weights whose sum is slightly below one (within the tolerance, so they are not
renormalised) make the index run off the array for a draw close to one. -/
theorem C11_index_error :
    IsWeights [1 - 2⁻¹ ^ 27] ∧
    systematicResample 1 (([1 - 2⁻¹ ^ 27] : List ℝ).map fin) (1 - 2⁻¹ ^ 28) = .error .indexError := by
  refine ⟨⟨by norm_num, by norm_num⟩, ?_⟩
  have hw : sysWeights (([1 - 2⁻¹ ^ 27] : List ℝ).map fin) = ([1 - 2⁻¹ ^ 27] : List ℝ).map fin :=
    sysWeights_near _ (by unfold sqrtEps; norm_num [abs_of_neg, abs_of_pos])
  rcases systematic_core 1 _ [1 - 2⁻¹ ^ 27] (by simp) hw (1 - 2⁻¹ ^ 28) with ⟨l, hl, hf⟩ | ⟨hl, -⟩
  · exfalso
    simp only [posReal, List.range_one, List.map_cons, List.map_nil, Nat.cast_zero, add_zero, Nat.cast_one, div_one] at hf
    cases hf with
    | cons h1 h2 =>
      have hj : _ < 1 := h1.1
      have := h1.2.1
      have hj0 := Nat.lt_one_iff.mp hj
      rw [hj0] at this
      norm_num [cum] at this
  · exact hl

/-! ### C12 -/

theorem cumsumFrom_fin (w : List ℝ) (a : ℝ) :
    cumsumFrom (fin a) (w.map fin) = (List.range w.length).map fun j => fin (a + cum w (j + 1)) := by
  induction w generalizing a with
  | nil => rfl
  | cons x w ih =>
    simp only [List.map_cons, cumsumFrom, List.length_cons, fin_add]
    rw [ih, List.range_succ_eq_map]
    simp [cum, Function.comp_def, add_assoc]

theorem takeWhile_map_length {β : Type*} (g : β → Bool) (l : List β) :
    ((l.map g).takeWhile id).length = (l.takeWhile g).length := by
  rw [List.takeWhile_map, List.length_map]; rfl

theorem takeWhile_range (n : ℕ) (f : ℕ → Bool) :
    (∀ k < (((List.range n).map f).takeWhile id).length, f k = true) ∧
    ((((List.range n).map f).takeWhile id).length < n → f (((List.range n).map f).takeWhile id).length = false) ∧
    (((List.range n).map f).takeWhile id).length ≤ n := by
  induction n generalizing f with
  | zero => simp
  | succ n ih =>
    rw [List.range_succ_eq_map, List.map_cons, List.map_map]
    cases h0 : f 0 with
    | false => simp [h0]
    | true =>
      obtain ⟨a, b, c⟩ := ih (f ∘ Nat.succ)
      simp only [List.takeWhile_cons, id, if_true, List.length_cons]
      refine ⟨?_, ?_, ?_⟩
      · intro k hk
        cases k with
        | zero => exact h0
        | succ k => exact a k (by simpa using hk)
      · intro h; exact b (by simpa using h)
      · simpa using c

/-- **C12.** Multinomial resampling of a weight vector that numpy accepts (sum within its tolerance of one): each
uniform draw `u` selects the index `j` whose interval `[cum j, cum (j+1)) / Σw`, of length `w[j]/Σw`, contains `u`;
all indices are valid, one per draw, and no zero-weight particle is ever selected. -/
theorem C12_multinomial (w : List ℝ) (h : IsWeights w) (hn : |w.sum - 1| ≤ sqrtEps) (us : List ℝ)
    (hu : ∀ u ∈ us, 0 ≤ u ∧ u < 1) :
    ∃ l, multinomialResample (w.map fin) us = .ok l ∧
      List.Forall₂ (fun u j => ∃ x, w[j]? = some x ∧ 0 < x ∧ cum w j / w.sum ≤ u ∧
        u < cum w j / w.sum + x / w.sum) us l := by
  have hl : 0 < w.length := List.length_pos_iff.mpr h.ne_nil
  have hcdf : cumsumFrom 0 (w.map fin) = (List.range w.length).map fun j => fin (cum w (j + 1)) := by
    have := cumsumFrom_fin w 0
    simpa [zero_def] using this
  have hlast : ((List.range w.length).map fun j => fin (cum w (j + 1))).getLast? = some (fin w.sum) := by
    rw [List.getLast?_map, List.getLast?_range]
    simp [h.ne_nil, show w.length - 1 + 1 = w.length by omega, cum_length]
  have hany : (w.map fin).any (fun x => decide (x < 0) || x.isnan) = false := by
    rw [List.any_eq_false]
    intro x hx
    obtain ⟨r, hr, rfl⟩ := List.mem_map.mp hx
    have := h.1 r hr
    simp only [isnan_fin, Bool.or_false, decide_eq_true_eq, zero_def, fin_lt, not_lt]
    exact this
  unfold multinomialResample
  simp only [hcdf, hlast, hany, Bool.false_eq_true, if_false]
  rw [if_neg (by simpa using hn)]
  refine ⟨_, rfl, ?_⟩
  rw [List.forall₂_map_right_iff, List.forall₂_same]
  intro u hu'
  obtain ⟨u0, u1⟩ := hu u hu'
  set f : ℕ → Bool := fun j => decide (cum w (j + 1) / w.sum ≤ u) with hf
  have hlen : ((((List.range w.length).map fun j => fin (cum w (j + 1))).map (· / fin w.sum)).takeWhile
      fun c => decide (c ≤ fin u)).length = (((List.range w.length).map f).takeWhile id).length := by
    have e : (List.range w.length).map f = (((List.range w.length).map fun j => fin (cum w (j + 1))).map
        (· / fin w.sum)).map fun c => decide (c ≤ fin u) := by
      simp only [List.map_map]
      apply List.map_congr_left
      intro j _
      simp only [hf, Function.comp, fin_div _ _ h.2.ne', fin_le]
    rw [e, takeWhile_map_length]
  rw [hlen]
  obtain ⟨a, b, c⟩ := takeWhile_range w.length f
  set J := (((List.range w.length).map f).takeWhile id).length with hJ
  have hJl : J < w.length := by
    by_contra hc
    have := a (w.length - 1) (by omega)
    simp only [hf, decide_eq_true_eq] at this
    rw [show w.length - 1 + 1 = w.length by omega, cum_length, div_self h.2.ne'] at this
    linarith
  have hb := b hJl
  simp only [hf, decide_eq_false_iff_not, not_le] at hb
  have ha : cum w J / w.sum ≤ u := by
    rcases Nat.eq_zero_or_pos J with h0 | h0
    · rw [h0, cum_zero, zero_div]; exact u0
    · have := a (J - 1) (by omega)
      simp only [hf, decide_eq_true_eq] at this
      rwa [show J - 1 + 1 = J by omega] at this
  rw [cum_succ w J hJl, add_div] at hb
  refine ⟨w[J], List.getElem?_eq_getElem hJl, ?_, ha, hb⟩
  have : 0 < w[J] / w.sum := by linarith
  exact (div_pos_iff_of_pos_right h.2).mp this

example : IsWeights [1 / 2, 0, 1 / 2] ∧ |([1 / 2, 0, 1 / 2] : List ℝ).sum - 1| ≤ sqrtEps ∧
    ∀ u ∈ ([0, 1 / 3, 1 / 2] : List ℝ), 0 ≤ u ∧ u < 1 := by
  refine ⟨⟨by simp, by norm_num⟩, ?_, ?_⟩
  · unfold sqrtEps; norm_num
  · simp only [List.mem_cons, List.not_mem_nil, or_false, forall_eq_or_imp, forall_eq]; norm_num

end Poco
