import Verif.Lemmas.Double

/-! # C122: weights and effective sample size in double precision -/

namespace Poco
open F Spec

variable {A : Arith}

/-- The weight of a log-weight, exactly. -/
noncomputable def Spec.weightOf : F → ℝ
  | fin l => Real.exp l
  | _ => 0

theorem val_fin (w : List ℝ) : (w.map fin).map Arith.val = w := by
  induction w with
  | nil => rfl
  | cons x w ih => simp only [List.map_cons, Arith.val, ih]

theorem all_finite (w : List ℝ) : (w.map fin).all isfinite = true := by
  simp [List.all_eq_true]

theorem sumD_fin (w : List ℝ) : A.sum (w.map fin) = fin (A.total w) := by
  unfold Arith.sum
  rw [if_pos (all_finite w), val_fin]

theorem normalizeD_fin {w : List ℝ} (h : A.total w ≠ 0) : normalizeD A (w.map fin) = (w.map fun x => A.rnd (x / A.total w)).map fin := by
  unfold normalizeD
  dsimp only
  rw [sumD_fin, List.map_map, List.map_map]
  apply List.map_congr_left
  intro x _
  simp only [Function.comp]
  rw [fin_div _ _ h]
  rfl

theorem sqD_fin (v : List ℝ) : ((v.map fin).map fun x => A.round (sq x)) = (v.map fun x => A.rnd (x ^ 2)).map fin := by
  rw [List.map_map, List.map_map]
  apply List.map_congr_left
  intro x _
  simp only [Function.comp]
  rw [sq_fin]
  rfl

theorem invSumSqD_fin {v : List ℝ} (h : A.total (v.map fun x => A.rnd (x ^ 2)) ≠ 0) :
    invSumSqD A (v.map fin) = fin (A.rnd (1 / A.total (v.map fun x => A.rnd (x ^ 2)))) := by
  unfold invSumSqD
  rw [sqD_fin, sumD_fin, fin_div _ _ h]
  rfl

/-- `effective_sample_size` in double precision, on weights of any scale. -/
theorem effectiveSampleSizeD_fin (hA : IsDouble A) {w : List ℝ} (h : Usable w) :
    ∃ v : List ℝ, ∃ e : ℝ, effectiveSampleSizeD A (w.map fin) = (v.map fin, fin e) ∧
      v = (w.map fun x => A.rnd (x / A.total w)) ∧ 0 < A.total w ∧
      Close (w.length * 2⁻¹ ^ 50) eta v (w.map fun x => x / w.sum) ∧
      |e - ess w| ≤ w.length * 2⁻¹ ^ 46 * ess w := by
  obtain ⟨h1, h2, h3⟩ := ess_close hA h (hA.total w) (hA.total _)
  refine ⟨_, _, ?_, rfl, h1, normal_close hA h (sum_close hA h (hA.total w)), h3⟩
  unfold effectiveSampleSizeD
  dsimp only
  rw [normalizeD_fin h1.ne', invSumSqD_fin h2.ne']

theorem foldl_maximum_range (l : List F) : ∀ a : F, a ≠ nan → a ≠ pinf → (∀ b ∈ l, b ≠ nan ∧ b ≠ pinf) →
    l.foldl maximum a ≠ nan ∧ l.foldl maximum a ≠ pinf ∧ (l.foldl maximum a = a ∨ l.foldl maximum a ∈ l) ∧ a ≤ l.foldl maximum a ∧
      ∀ b ∈ l, b ≤ l.foldl maximum a := by
  induction l with
  | nil =>
    intro a h1 h2 _
    refine ⟨h1, h2, Or.inl rfl, ?_, by simp⟩
    cases a <;> simp_all
  | cons c l ih =>
    intro a h1 h2 hl
    have hc := hl c (by simp)
    have hl' : ∀ b ∈ l, b ≠ nan ∧ b ≠ pinf := fun b hb => hl b (by simp [hb])
    have hm : (maximum a c = a ∨ maximum a c = c) ∧ a ≤ maximum a c ∧ c ≤ maximum a c := by
      unfold maximum
      cases a <;> cases c <;> simp_all
      rename_i x y
      split <;> rename_i hxy
      · simp [hxy]
      · simp [le_of_not_ge hxy]
        exact Or.inl fun h => absurd h hxy
    have hma : maximum a c ≠ nan ∧ maximum a c ≠ pinf := by
      rcases hm.1 with h | h <;> rw [h]
      exacts [⟨h1, h2⟩, hc]
    obtain ⟨i1, i2, i3, i4, i5⟩ := ih (maximum a c) hma.1 hma.2 hl'
    have tr : ∀ x y z : F, x ≤ y → y ≤ z → x ≤ z := by
      intro x y z
      cases x <;> cases y <;> cases z <;> simp
      exact le_trans
    rw [List.foldl_cons]
    refine ⟨i1, i2, ?_, tr _ _ _ hm.2.1 i4, ?_⟩
    · rcases i3 with h | h
      · rw [h]
        rcases hm.1 with h' | h'
        · exact Or.inl h'
        · rw [h']; exact Or.inr (by simp)
      · exact Or.inr (by simp [h])
    · intro b hb
      rcases List.mem_cons.mp hb with rfl | hb
      · exact tr _ _ _ hm.2.2 i4
      · exact i5 b hb

/-- Log-weights that can be used: no NaN, no `+inf`, not all `-inf`, not more than `2^40` of them. -/
structure Spec.UsableLog (logw : List F) : Prop where
  no_nan : nan ∉ logw
  no_pinf : pinf ∉ logw
  some_fin : ∃ l, fin l ∈ logw
  few : logw.length ≤ 2 ^ 40

theorem Spec.UsableLog.max {logw : List F} (h : UsableLog logw) :
    ∃ m, F.max logw = .ok (fin m) ∧ fin m ∈ logw ∧ ∀ l, fin l ∈ logw → l ≤ m := by
  obtain ⟨l0, hl0⟩ := h.some_fin
  cases hc : logw with
  | nil => rw [hc] at hl0; simp at hl0
  | cons a l =>
    have hall : ∀ b ∈ logw, b ≠ nan ∧ b ≠ pinf := fun b hb => ⟨fun e => h.no_nan (e ▸ hb), fun e => h.no_pinf (e ▸ hb)⟩
    rw [hc] at hall hl0
    obtain ⟨i1, i2, i3, i4, i5⟩ := foldl_maximum_range l a (hall a (by simp)).1 (hall a (by simp)).2 fun b hb => hall b (by simp [hb])
    have hle : ∀ b ∈ a :: l, b ≤ l.foldl maximum a := by
      intro b hb
      rcases List.mem_cons.mp hb with rfl | hb
      · exact i4
      · exact i5 b hb
    have hmem : l.foldl maximum a ∈ a :: l := by
      rcases i3 with h | h
      · rw [h]; simp
      · simp [h]
    have hf := hle _ hl0
    simp only [F.max]
    cases hM : l.foldl maximum a with
    | nan => exact absurd hM i1
    | pinf => exact absurd hM i2
    | ninf => rw [hM] at hf; simp at hf
    | fin m =>
      refine ⟨m, rfl, hM ▸ hmem, fun l' hl' => ?_⟩
      have := hle _ hl'
      rw [hM] at this
      simpa using this

/-- The computed raw weight of a log-weight. -/
noncomputable def rawOf (A : Arith) (m : ℝ) : F → ℝ
  | fin l => A.exp (A.rnd (l - m))
  | _ => 0

/-- The exact weight relative to the largest. -/
noncomputable def relOf (m : ℝ) : F → ℝ
  | fin l => Real.exp (l - m)
  | _ => 0

theorem rawWeightsD_eq {logw : List F} (h : UsableLog logw) {m : ℝ} (hm : F.max logw = .ok (fin m)) :
    rawWeightsD A logw = .ok ((logw.map (rawOf A m)).map fin) := by
  unfold rawWeightsD
  rw [hm]
  simp only [bind, Except.bind, pure, Except.pure]
  congr 1
  rw [List.map_map]
  apply List.map_congr_left
  intro a ha
  cases a with
  | nan => exact absurd ha h.no_nan
  | pinf => exact absurd ha h.no_pinf
  | ninf => rfl
  | fin l => simp [rawOf, Arith.round, Arith.expF]

theorem close_of_map' {α : Type*} {a b : ℝ} (l : List α) (f g : α → ℝ) (h : ∀ x ∈ l, |f x - g x| ≤ a * g x + b) : Close a b (l.map f) (l.map g) := by
  induction l with
  | nil => exact List.Forall₂.nil
  | cons x l ih => exact List.Forall₂.cons (h x (by simp)) (ih fun y hy => h y (by simp [hy]))


theorem Close.trans {a b c d : ℝ} {x y z : List ℝ} (h1 : Close a b x y) (h2 : Close c d y z) (ha : 0 ≤ a) : Close (a + c + a * c) (b + d + a * d) x z := by
  induction h1 generalizing z with
  | nil => cases h2; exact List.Forall₂.nil
  | @cons x0 y0 x y hxy _ ih =>
    cases h2 with
    | @cons _ z0 _ z hyz ht =>
      refine List.Forall₂.cons ?_ (ih ht)
      have hy : y0 ≤ z0 + (c * z0 + d) := by linarith [(abs_le.mp hyz).2]
      have := mul_le_mul_of_nonneg_left hy ha
      calc |x0 - z0| = |(x0 - y0) + (y0 - z0)| := by ring_nf
        _ ≤ |x0 - y0| + |y0 - z0| := abs_add_le _ _
        _ ≤ _ := by linarith

theorem Close.mono {a b a' b' : ℝ} {x y : List ℝ} (h : Close a b x y) (ha : a ≤ a') (hb : b ≤ b') (hy : ∀ t ∈ y, 0 ≤ t) : Close a' b' x y := by
  induction h with
  | nil => exact List.Forall₂.nil
  | @cons x0 y0 x y hxy _ ih =>
    refine List.Forall₂.cons (hxy.trans ?_) (ih fun t ht => hy t (by simp [ht]))
    have := mul_le_mul_of_nonneg_right ha (hy y0 (by simp))
    linarith

/-- Normalising close lists gives close lists. -/
theorem Close.normalize {a b : ℝ} {x y : List ℝ} (h : Close a b x y) (ha : 0 ≤ a) (ha1 : a ≤ 1 / 16) (hb : 0 ≤ b) (hb1 : y.length * b ≤ a * y.sum)
    (hy : ∀ t ∈ y, 0 ≤ t) (hx : ∀ t ∈ x, 0 ≤ t) (hT : 1 ≤ y.sum) :
    |x.sum - y.sum| ≤ 2 * a * y.sum ∧ Close (5 * a) (2 * b) (x.map (· / x.sum)) (y.map (· / y.sum)) := by
  have hs := h.sum
  have hs' : |x.sum - y.sum| ≤ 2 * a * y.sum := by linarith
  refine ⟨hs', ?_⟩
  have hT0 : 0 < y.sum := by linarith
  have c1 : Close (2 * a + 2 * (2 * a) ^ 2) 0 (x.map (· / x.sum)) (x.map (· / y.sum)) :=
    Close.of_map _ _ _ fun t ht => by
      rw [add_zero]
      exact div_close (hx t ht) hT0 (by positivity) (by linarith) hs'
  have c2 : Close a b (x.map (· / y.sum)) (y.map (· / y.sum)) := by
    apply h.map
    intro s t ht hst
    rw [← sub_div, abs_div, abs_of_pos hT0, div_le_iff₀ hT0]
    have e1 : (a * (t / y.sum) + b) * y.sum = a * t + b * y.sum := by field_simp
    rw [e1]
    nlinarith
  have c3 := c1.trans c2 (by positivity)
  refine c3.mono ?_ ?_ ?_
  · have : 2 * a + 2 * (2 * a) ^ 2 ≤ 5 / 2 * a := by nlinarith
    nlinarith
  · have : 2 * a + 2 * (2 * a) ^ 2 ≤ 1 := by nlinarith
    nlinarith
  · intro t ht
    obtain ⟨r, hr, rfl⟩ := List.mem_map.mp ht
    exact div_nonneg (hy r hr) hT0.le

theorem relOf_eq (m : ℝ) (logw : List F) : logw.map (relOf m) = (logw.map weightOf).map (Real.exp (-m) * ·) := by
  rw [List.map_map]
  apply List.map_congr_left
  intro a _
  cases a <;> simp [relOf, weightOf]
  rw [← Real.exp_add]; ring_nf

/-- **C122.** In double precision, from log-weights without NaN and `+inf`, not all `-inf`, and whatever the order of additions: the weights
`exp(logw - max(logw))` are numbers between 0 and 1 and one of them is exactly 1; `effective_sample_size` divides them into numbers between 0 and 1,
each of them the exact normalised weight up to a relative error of `n·2⁻⁴⁹ + 2⁻³⁶` (and an absolute one of `2⁻⁹⁰⁰`), with exact sum 1 up to
`n·2⁻⁴⁹`; and it returns the exact effective sample size up to the relative error `n·2⁻⁴⁵ + 2⁻³⁵`. -/
theorem C122_weights (hA : IsDouble A) (logw : List F) (h : UsableLog logw) :
    ∃ w v : List ℝ, ∃ e : ℝ,
      rawWeightsD A logw = .ok (w.map fin) ∧ (∀ x ∈ w, 0 ≤ x ∧ x ≤ 1) ∧ 1 ∈ w ∧
      effectiveSampleSizeD A (w.map fin) = (v.map fin, fin e) ∧ (∀ x ∈ v, 0 ≤ x ∧ x ≤ 1) ∧
      |v.sum - 1| ≤ logw.length * 2⁻¹ ^ 49 ∧
      List.Forall₂ (fun x a => |x - weightOf a / (logw.map weightOf).sum| ≤
        (logw.length * 2⁻¹ ^ 49 + 2⁻¹ ^ 36) * (weightOf a / (logw.map weightOf).sum) + 2⁻¹ ^ 900) v logw ∧
      |e - ess (logw.map weightOf)| ≤ (logw.length * 2⁻¹ ^ 45 + 2⁻¹ ^ 35) * ess (logw.map weightOf) := by
  obtain ⟨m, hm, hmem, hle⟩ := h.max
  set w := logw.map (rawOf A m) with hw
  set t := logw.map (relOf m) with ht
  have hr0 : ∀ l, fin l ∈ logw → A.rnd (l - m) ≤ 0 := fun l hl => by
    rw [← hA.zero]; exact hA.mono (by linarith [hle l hl])
  have hw01 : ∀ x ∈ w, 0 ≤ x ∧ x ≤ 1 := by
    intro x hx
    obtain ⟨a, ha, rfl⟩ := List.mem_map.mp hx
    cases a with
    | fin l => exact hA.exp_range _ (hr0 l ha)
    | nan => simp [rawOf]
    | ninf => simp [rawOf]
    | pinf => simp [rawOf]
  have hw1 : (1 : ℝ) ∈ w := List.mem_map.mpr ⟨fin m, hmem, by simp [rawOf, hA.zero, hA.exp_zero]⟩
  have ht01 : ∀ x ∈ t, 0 ≤ x ∧ x ≤ 1 := by
    intro x hx
    obtain ⟨a, ha, rfl⟩ := List.mem_map.mp hx
    cases a with
    | fin l => exact ⟨(Real.exp_pos _).le, by rw [relOf]; exact Real.exp_le_one_iff.mpr (by linarith [hle l ha])⟩
    | nan => simp [relOf]
    | ninf => simp [relOf]
    | pinf => simp [relOf]
  have ht1 : (1 : ℝ) ∈ t := List.mem_map.mpr ⟨fin m, hmem, by simp [relOf]⟩
  have hT : 1 ≤ t.sum := List.single_le_sum (fun x hx => (ht01 x hx).1) 1 ht1
  have hW : 1 ≤ w.sum := List.single_le_sum (fun x hx => (hw01 x hx).1) 1 hw1
  have hlenw : w.length = logw.length := by rw [hw, List.length_map]
  have hlent : t.length = logw.length := by rw [ht, List.length_map]
  have hus : Usable w := ⟨fun x hx => (hw01 x hx).1, le_trans (pow_le_one₀ (by norm_num) (by norm_num)) hW, by rw [hlenw]; exact h.few⟩
  have hn : (1 : ℝ) ≤ logw.length := by have := hus.one_le; rwa [hlenw] at this
  have hf : (logw.length : ℝ) ≤ 2 ^ 40 := by exact_mod_cast h.few
  set n : ℝ := (logw.length : ℝ) with hnd
  have hct : Close (2⁻¹ ^ 40) (2⁻¹ ^ 1000) w t := by
    apply close_of_map'
    intro a ha
    cases a with
    | fin l => exact exp_close hA (by linarith [hle l ha])
    | nan => simp [rawOf, relOf]
    | ninf => simp [rawOf, relOf]
    | pinf => simp [rawOf, relOf]
  have hsmall : n * 2⁻¹ ^ 1000 ≤ 2⁻¹ ^ 40 := by
    have h1 : (2⁻¹ : ℝ) ^ 1000 ≤ 2⁻¹ ^ 80 := pow_le_pow_of_le_one (by norm_num) (by norm_num) (by norm_num)
    calc n * 2⁻¹ ^ 1000 ≤ 2 ^ 40 * 2⁻¹ ^ 80 := mul_le_mul hf h1 (by positivity) (by positivity)
      _ = _ := by norm_num
  obtain ⟨hWT, hcn⟩ := hct.normalize (by positivity) (by norm_num) (by positivity)
    (by rw [hlent]; exact hsmall.trans (le_mul_of_one_le_right (by positivity) hT)) (fun x hx => (ht01 x hx).1) (fun x hx => (hw01 x hx).1) hT
  obtain ⟨v, e, hess, hv, hS, hcv, hee⟩ := effectiveSampleSizeD_fin hA hus
  rw [hlenw, ← hnd] at hcv hee
  have hS1 : ∀ x ∈ w, x ≤ A.total w := (Added.ge_mem hA.mono hA.zero hA.idem (hA.total w) fun x hx => by
    refine ⟨(hw01 x hx).1, ?_⟩
    obtain ⟨a, ha, rfl⟩ := List.mem_map.mp hx
    cases a with
    | fin l => exact hA.exp_double _
    | nan => exact hA.zero
    | ninf => exact hA.zero
    | pinf => exact hA.zero).2
  have hpr := hus.probs
  refine ⟨w, v, e, rawWeightsD_eq h hm, hw01, hw1, hess, ?_, ?_, ?_, ?_⟩
  · intro x hx
    rw [hv] at hx
    obtain ⟨y, hy, rfl⟩ := List.mem_map.mp hx
    exact ⟨hA.nonneg (div_nonneg (hw01 y hy).1 hS.le), hA.le_one (by rw [div_le_one hS]; exact hS1 y hy)⟩
  · have h1 := hcv.sum
    rw [hpr.sum, List.length_map, hlenw, ← hnd, mul_one] at h1
    refine h1.trans ?_
    have h2 : eta ≤ 2⁻¹ ^ 50 := by unfold eta; exact pow_le_pow_of_le_one (by norm_num) (by norm_num) (by norm_num)
    have h3 : n * eta ≤ n * 2⁻¹ ^ 50 := mul_le_mul_of_nonneg_left h2 (by linarith)
    have h4 : n * 2⁻¹ ^ 50 + n * 2⁻¹ ^ 50 = n * 2⁻¹ ^ 49 := by ring
    linarith
  · have c := (hcv.trans hcn (by positivity)).mono (a' := n * 2⁻¹ ^ 49 + 2⁻¹ ^ 36) (b' := 2⁻¹ ^ 900) ?_ ?_ ?_
    · have hmul : (logw.map weightOf).sum * Real.exp (-m) = t.sum := by rw [ht, relOf_eq, list_sum_map_mul, mul_comm]
      have hl2 : t.map (· / t.sum) = logw.map fun a => weightOf a / (logw.map weightOf).sum := by
        rw [← hmul, ht, relOf_eq, List.map_map, List.map_map]
        apply List.map_congr_left
        intro a _
        simp only [Function.comp]
        rw [mul_comm (Real.exp (-m)), mul_div_mul_right _ _ (Real.exp_pos _).ne']
      rw [hl2] at c
      exact List.forall₂_map_right_iff.mp c
    · have h3 : n * 2⁻¹ ^ 50 * (5 * 2⁻¹ ^ 40) ≤ n * 2⁻¹ ^ 50 * 1 := mul_le_mul_of_nonneg_left (by norm_num) (by positivity)
      have h4 : n * 2⁻¹ ^ 50 + n * 2⁻¹ ^ 50 = n * 2⁻¹ ^ 49 := by ring
      have h5 : (5 * 2⁻¹ ^ 40 : ℝ) ≤ 2⁻¹ ^ 36 := by norm_num
      linarith
    · have h1 : eta ≤ 2⁻¹ ^ 903 := by unfold eta; exact pow_le_pow_of_le_one (by norm_num) (by norm_num) (by norm_num)
      have h2 : (2⁻¹ : ℝ) ^ 1000 ≤ 2⁻¹ ^ 903 := pow_le_pow_of_le_one (by norm_num) (by norm_num) (by norm_num)
      have h3 : (2⁻¹ : ℝ) ^ 900 = 8 * 2⁻¹ ^ 903 := by
        rw [show (903 : ℕ) = 900 + 3 by norm_num, pow_add]; ring
      have h4 : n * 2⁻¹ ^ 50 ≤ 1 := by
        calc n * 2⁻¹ ^ 50 ≤ 2 ^ 40 * 2⁻¹ ^ 50 := mul_le_mul_of_nonneg_right hf (by positivity)
          _ ≤ 1 := by norm_num
      have h5 : (0 : ℝ) < 2⁻¹ ^ 1000 := by positivity
      rw [h3]
      generalize (2⁻¹ : ℝ) ^ 1000 = x at *
      generalize (2⁻¹ : ℝ) ^ 903 = y at *
      have h6 := mul_le_mul_of_nonneg_right h4 (by linarith : 0 ≤ 2 * x)
      linarith
    · intro x hx
      obtain ⟨y, hy, rfl⟩ := List.mem_map.mp hx
      exact div_nonneg (ht01 y hy).1 (by linarith)
  · have hsq : Close (3 * 2⁻¹ ^ 40) (4 * 2⁻¹ ^ 1000) (w.map (· ^ 2)) (t.map (· ^ 2)) := by
      apply hct.map
      intro x y hy hxy
      exact sq_close (by positivity) (by norm_num) (by positivity) (pow_le_one₀ (by norm_num) (by norm_num)) (ht01 y hy).1 (ht01 y hy).2 hxy
    have hQ1 : 1 ≤ (t.map (· ^ 2)).sum := by
      have : (1 : ℝ) ∈ t.map (· ^ 2) := List.mem_map.mpr ⟨1, ht1, by norm_num⟩
      exact List.single_le_sum (fun x hx => by obtain ⟨y, -, rfl⟩ := List.mem_map.mp hx; exact sq_nonneg y) 1 this
    have h2 := hsq.sum
    rw [List.length_map, hlent, ← hnd] at h2
    have h3 : |(w.map (· ^ 2)).sum - (t.map (· ^ 2)).sum| ≤ 2⁻¹ ^ 37 * (t.map (· ^ 2)).sum := by
      refine h2.trans ?_
      have h4 : n * (4 * 2⁻¹ ^ 1000) ≤ 4 * 2⁻¹ ^ 40 * (t.map (· ^ 2)).sum := by
        calc n * (4 * 2⁻¹ ^ 1000) = 4 * (n * 2⁻¹ ^ 1000) := by ring
          _ ≤ 4 * 2⁻¹ ^ 40 := by linarith
          _ ≤ _ := le_mul_of_one_le_right (by positivity) hQ1
      have h5 : (2⁻¹ : ℝ) ^ 37 = 8 * 2⁻¹ ^ 40 := by norm_num
      rw [h5]
      refine (add_le_add_right h4 _).trans ?_
      rw [← add_mul]
      exact mul_le_mul_of_nonneg_right (by norm_num) (by linarith)
    have h6 := kish_close (by linarith) (by linarith) (by positivity) (by norm_num) (by positivity) (by norm_num) hWT h3
    have hes : ess t = ess (logw.map weightOf) := by rw [ht, relOf_eq, ess_scale _ (Real.exp_pos _).ne']
    change |ess w - ess t| ≤ _ * ess t at h6
    rw [hes] at h6
    have hpos : 0 ≤ ess (logw.map weightOf) := by
      rw [← hes]; exact div_nonneg (sq_nonneg _) (by linarith)
    have h7 : |e - ess w| ≤ n * 2⁻¹ ^ 46 * |ess w| := by rw [abs_of_pos (ess_pos hus.isWeights)]; exact hee
    refine (rel_chain hpos (by positivity) h6 h7 (by positivity)).trans (mul_le_mul_of_nonneg_right ?_ hpos)
    have h8 : (3 * (2 * 2⁻¹ ^ 40) + 2 * 2⁻¹ ^ 37 : ℝ) ≤ 2⁻¹ ^ 35 := by norm_num
    have h9 : (3 * (2 * 2⁻¹ ^ 40) + 2 * 2⁻¹ ^ 37 : ℝ) * (n * 2⁻¹ ^ 46) ≤ 1 * (n * 2⁻¹ ^ 46) :=
      mul_le_mul_of_nonneg_right (h8.trans (by norm_num)) (by positivity)
    have h10 : n * 2⁻¹ ^ 46 + n * 2⁻¹ ^ 46 = n * 2⁻¹ ^ 45 := by ring
    linarith

end Poco
