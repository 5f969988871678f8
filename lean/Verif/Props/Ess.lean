import Verif.Lemmas.Weights
import Mathlib.Algebra.BigOperators.Ring.Finset
import Mathlib.Algebra.Order.BigOperators.Group.Finset
import Mathlib.Tactic.NormNum

/-! # C01-C04: effective and unique sample size, evidence increment -/

namespace Poco
open F Spec

/-- **C01.** For every usable weight vector, `effective_sample_size` returns a number `e` between 1 and the number of
weights; `e` is maximal exactly for equal weights and 1 exactly when one particle carries all the weight; it does not
change under positive rescaling; the caller's array then holds the normalised weights, which sum to one. -/
theorem C01_ess (w : List ℝ) (h : IsWeights w) :
    ∃ e : ℝ, effectiveSampleSize (w.map fin) = ((w.map fun x => fin (x / w.sum)), fin e) ∧
      (w.map fun x => x / w.sum).sum = 1 ∧
      1 ≤ e ∧ e ≤ w.length ∧
      (e = w.length ↔ ∀ x ∈ w, ∀ y ∈ w, x = y) ∧
      (e = 1 ↔ (w.filter (· ≠ 0)).length = 1) ∧
      ∀ c : ℝ, 0 < c → effectiveSampleSize (w.map fun x => fin (c * x)) = effectiveSampleSize (w.map fin) := by
  refine ⟨ess w, ?_, sum_normalized h.2.ne', one_le_ess h, ess_le_length h, ess_eq_length_iff h, ess_eq_one_iff h, ?_⟩
  · rw [effectiveSampleSize_fin w h.2.ne']; simp
  · intro c hc
    have e1 : (w.map fun x => fin (c * x)) = (w.map (c * ·)).map fin := by simp
    have hs : (w.map (c * ·)).sum ≠ 0 := by rw [list_sum_map_mul]; exact mul_ne_zero hc.ne' h.2.ne'
    rw [e1, effectiveSampleSize_fin _ hs, effectiveSampleSize_fin w h.2.ne', ess_scale c hc.ne', list_sum_map_mul]
    simp only [List.map_map, Prod.mk.injEq, and_true]
    apply List.map_congr_left
    intro x _
    simp only [Function.comp]
    rw [mul_div_mul_left _ _ hc.ne']

example : IsWeights [1, 2, 0, 5] := ⟨by simp, by norm_num⟩

/-- **C01**, the value: the result is Kish's effective sample size `(Σw)²/Σw²`. -/
theorem C01_ess_value (w : List ℝ) (h : IsWeights w) : (effectiveSampleSize (w.map fin)).2 = fin (ess w) := by
  rw [effectiveSampleSize_fin w h.2.ne']

/-! ### C02 -/

/-- The expectation of the number of distinct draws, in closed form. -/
theorem expectedDistinct_eq {n : ℕ} (p : Fin n → ℝ) (hp : ∑ j, p j = 1) (k : ℕ) :
    expectedDistinct p k = ∑ j, (1 - (1 - p j) ^ k) := by
  classical
  have tot : ∑ d : Fin k → Fin n, ∏ i, p (d i) = 1 := by
    have := Finset.prod_univ_sum (fun _ : Fin k => (Finset.univ : Finset (Fin n))) (fun _ j => p j)
    simp only [Fintype.piFinset_univ] at this
    rw [← this]; simp [hp]
  have avoid : ∀ j, ∑ d : Fin k → Fin n, (∏ i, p (d i)) * (if j ∈ Finset.univ.image d then (1 : ℝ) else 0)
      = 1 - (1 - p j) ^ k := by
    intro j
    have h1 : ∀ d : Fin k → Fin n, (∏ i, p (d i)) * (if j ∈ Finset.univ.image d then (1 : ℝ) else 0)
        = (∏ i, p (d i)) - ∏ i, (if d i = j then 0 else p (d i)) := by
      intro d
      by_cases hj : ∃ i, d i = j
      · obtain ⟨i, hi⟩ := hj
        have hm : j ∈ Finset.univ.image d := by simp only [Finset.mem_image, Finset.mem_univ, true_and]; exact ⟨i, hi⟩
        have hz : ∏ i, (if d i = j then 0 else p (d i)) = 0 :=
          Finset.prod_eq_zero (Finset.mem_univ i) (by simp [hi])
        rw [hz]; simp [hm]
      · have hm : j ∉ Finset.univ.image d := by
          simp only [Finset.mem_image, Finset.mem_univ, true_and]; exact hj
        have hz : ∏ i, (if d i = j then 0 else p (d i)) = ∏ i, p (d i) := by
          apply Finset.prod_congr rfl
          intro i _
          rw [if_neg (fun e => hj ⟨i, e⟩)]
        rw [hz]; simp [hm]
    rw [Finset.sum_congr rfl (fun d _ => h1 d), Finset.sum_sub_distrib, tot]
    have h2 := Finset.prod_univ_sum (fun _ : Fin k => (Finset.univ : Finset (Fin n)))
      (fun _ a => if a = j then 0 else p a)
    simp only [Fintype.piFinset_univ] at h2
    rw [← h2]
    have h3 : ∑ a, (if a = j then 0 else p a) = 1 - p j := by
      have : ∑ a, (if a = j then 0 else p a) = ∑ a, (p a - if a = j then p a else 0) := by
        apply Finset.sum_congr rfl; intro a _; split <;> simp
      rw [this, Finset.sum_sub_distrib, hp]; simp
    simp [h3]
  unfold expectedDistinct
  have h4 : ∀ d : Fin k → Fin n, ((Finset.univ.image d).card : ℝ)
      = ∑ j, (if j ∈ Finset.univ.image d then (1 : ℝ) else 0) := by
    intro d; simp
  rw [Finset.sum_congr rfl (fun d _ => by rw [h4 d, Finset.mul_sum]), Finset.sum_comm]
  exact Finset.sum_congr rfl (fun j _ => avoid j)

theorem sum_get_eq (w : List ℝ) (f : ℝ → ℝ) : ∑ j : Fin w.length, f (w.get j) = (w.map f).sum := by
  rw [← List.sum_ofFn]
  congr 1
  apply List.ext_getElem <;> simp

theorem uniqueSampleSize_fin (w : List ℝ) (hs : w.sum ≠ 0) (k : ℕ) :
    uniqueSampleSize (w.map fin) (some k) =
      ((w.map fun x => fin (x / w.sum)), fin ((w.map fun x => 1 - (1 - x / w.sum) ^ k).sum)) := by
  simp only [uniqueSampleSize, normalize_fin w hs, Option.getD_some]
  refine Prod.ext (by simp) ?_
  rw [← sum_fin]
  simp [Function.comp_def]

theorem uss_mono (w : List ℝ) (h : IsWeights w) {k l : ℕ} (hkl : k ≤ l) :
    (w.map fun x => 1 - (1 - x / w.sum) ^ k).sum ≤ (w.map fun x => 1 - (1 - x / w.sum) ^ l).sum := by
  apply List.sum_le_sum
  intro x hx
  have h0 : 0 ≤ x / w.sum := div_nonneg (h.1 x hx) h.2.le
  have h1 : x / w.sum ≤ 1 := by
    rw [div_le_one h.2]; exact List.single_le_sum h.1 x hx
  have := pow_le_pow_of_le_one (by linarith : 0 ≤ 1 - x / w.sum) (by linarith) hkl
  linarith

theorem uss_one (w : List ℝ) (hs : w.sum ≠ 0) : (w.map fun x => 1 - (1 - x / w.sum) ^ 1).sum = 1 := by
  simpa using sum_normalized hs

theorem uss_le_k (w : List ℝ) (h : IsWeights w) (k : ℕ) : (w.map fun x => 1 - (1 - x / w.sum) ^ k).sum ≤ k := by
  have : (w.map fun x => 1 - (1 - x / w.sum) ^ k).sum ≤ (w.map fun x => (k : ℝ) * (x / w.sum)).sum := by
    apply List.sum_le_sum
    intro x hx
    have h0 : 0 ≤ x / w.sum := div_nonneg (h.1 x hx) h.2.le
    have h1 : x / w.sum ≤ 1 := by
      rw [div_le_one h.2]; exact List.single_le_sum h.1 x hx
    have := one_add_mul_le_pow (by linarith : (-2 : ℝ) ≤ -(x / w.sum)) k
    have e : (1 + -(x / w.sum)) = 1 - x / w.sum := by ring
    rw [e] at this
    linarith
  refine this.trans_eq ?_
  rw [List.sum_map_mul_left, sum_normalized h.2.ne', mul_one]

theorem uss_le_n (w : List ℝ) (h : IsWeights w) (k : ℕ) :
    (w.map fun x => 1 - (1 - x / w.sum) ^ k).sum ≤ w.length := by
  have : (w.map fun x => 1 - (1 - x / w.sum) ^ k).sum ≤ (w.map fun _ => (1 : ℝ)).sum := by
    apply List.sum_le_sum
    intro x hx
    have h1 : x / w.sum ≤ 1 := by
      rw [div_le_one h.2]; exact List.single_le_sum h.1 x hx
    have := pow_nonneg (by linarith : 0 ≤ 1 - x / w.sum) k
    linarith
  simpa using this

/-- **C02.** `unique_sample_size(w, k)` for `k ≥ 1` is the expected number of distinct indices among `k` independent
draws with probabilities proportional to `w`; it lies in `[1, min k n]`, grows with `k`, ignores positive rescaling,
and `k=None` means `k = len(w)`. -/
theorem C02_uss (w : List ℝ) (h : IsWeights w) (k : ℕ) (hk : 1 ≤ k) :
    ∃ u : ℝ, uniqueSampleSize (w.map fin) (some k) = (w.map fun x => fin (x / w.sum), fin u) ∧
      u = expectedDistinct (fun j : Fin w.length => w.get j / w.sum) k ∧
      1 ≤ u ∧ u ≤ k ∧ u ≤ w.length ∧
      (∀ l v, k ≤ l → (uniqueSampleSize (w.map fin) (some l)).2 = fin v → u ≤ v) ∧
      (∀ c : ℝ, 0 < c →
        uniqueSampleSize (w.map fun x => fin (c * x)) (some k) = uniqueSampleSize (w.map fin) (some k)) ∧
      uniqueSampleSize (w.map fin) none = uniqueSampleSize (w.map fin) (some w.length) := by
  refine ⟨_, uniqueSampleSize_fin w h.2.ne' k, ?_, ?_, uss_le_k w h k, uss_le_n w h k, ?_, ?_, ?_⟩
  · rw [expectedDistinct_eq, sum_get_eq w (fun x => 1 - (1 - x / w.sum) ^ k)]
    rw [sum_get_eq w (fun x => x / w.sum)]
    exact sum_normalized h.2.ne'
  · exact (uss_one w h.2.ne').symm.le.trans (uss_mono w h hk)
  · intro l v hl hv
    rw [uniqueSampleSize_fin w h.2.ne'] at hv
    simp only [fin_inj] at hv
    rw [← hv]; exact uss_mono w h hl
  · intro c hc
    have e1 : (w.map fun x => fin (c * x)) = (w.map (c * ·)).map fin := by simp
    have hs : (w.map (c * ·)).sum ≠ 0 := by rw [list_sum_map_mul]; exact mul_ne_zero hc.ne' h.2.ne'
    rw [e1, uniqueSampleSize_fin _ hs, uniqueSampleSize_fin w h.2.ne', list_sum_map_mul]
    simp only [List.map_map, Function.comp_def, mul_div_mul_left _ _ hc.ne']
  · simp [uniqueSampleSize]

example : IsWeights [1, 2, 0, 5] ∧ 1 ≤ 3 := ⟨⟨by simp, by norm_num⟩, by norm_num⟩

/-! ### C03, C04 -/

theorem exp_isWeights (l : List ℝ) (h : l ≠ []) : IsWeights (l.map Real.exp) := by
  refine ⟨by simp only [List.mem_map]; rintro x ⟨y, -, rfl⟩; positivity, ?_⟩
  cases l with
  | nil => exact absurd rfl h
  | cons a l =>
    have : 0 ≤ (l.map Real.exp).sum :=
      List.sum_nonneg (by simp only [List.mem_map]; rintro x ⟨y, -, rfl⟩; positivity)
    have := Real.exp_pos a
    simp only [List.map_cons, List.sum_cons]; linarith

theorem exp_sub_map (l : List ℝ) (m : ℝ) : (l.map fun x => Real.exp (x - m)) = (l.map Real.exp).map (Real.exp (-m) * ·) := by
  simp only [List.map_map]
  apply List.map_congr_left
  intro x _
  simp only [Function.comp]
  rw [← Real.exp_add]; ring_nf

/-- `compute_ess` on finite log-weights is the ESS of the exponentiated weights over their number. -/
theorem computeEss_fin (l : List ℝ) (h : l ≠ []) :
    computeEss (l.map fin) = .ok (fin (ess (l.map Real.exp) / l.length)) := by
  obtain ⟨m, hm, -, -⟩ := max_fin l h
  have hw := exp_isWeights l h
  have hn : (l.length : ℝ) ≠ 0 := by
    have := List.length_pos_iff.mpr h
    positivity
  set v : List ℝ := l.map (fun x => Real.exp (x - m)) with hv
  have hv' : v = (l.map Real.exp).map (Real.exp (-m) * ·) := exp_sub_map l m
  have hvs : v.sum ≠ 0 := by
    rw [hv', list_sum_map_mul]; exact mul_ne_zero (Real.exp_ne_zero _) hw.2.ne'
  have e1 : ((l.map fin).map (· - fin m)).map exp = v.map fin := by simp [hv, Function.comp_def]
  have e2 : (((l.map fin).map (· - fin m)).map fun x => exp x / sum (v.map fin)) = (v.map (· / v.sum)).map fin := by
    rw [← normalize_fin v hvs, normalize, ← e1]
    simp [Function.comp_def]
  have e3 : ∀ x : List F, (x.map fun w => w * w) = x.map sq := fun x => rfl
  simp only [computeEss, hm, bind, Except.bind, pure, Except.pure]
  rw [e1, e2, e3]
  have := invSumSq_fin (v.map (· / v.sum)) (by rw [sum_normalized hvs]; norm_num)
  unfold invSumSq at this
  rw [this, inv_sumsq_normalized hvs]
  have hl : (List.map fin (List.map (fun x => x / v.sum) v)).length = l.length := by simp [hv]
  rw [hl, F.ofNat, fin_div _ _ hn, hv', ess_scale _ (Real.exp_ne_zero _)]

/-- **C03.** `compute_ess` of finite log-weights is a fraction in `[1/n, 1]` that ignores a common offset, and an empty
array raises ValueError. -/
theorem C03_compute_ess (l : List ℝ) (h : l ≠ []) :
    (∃ e : ℝ, computeEss (l.map fin) = .ok (fin e) ∧ 1 / (l.length : ℝ) ≤ e ∧ e ≤ 1 ∧
      e = ess (l.map Real.exp) / l.length ∧
      ∀ c : ℝ, computeEss (l.map fun x => fin (x + c)) = .ok (fin e)) ∧
    computeEss [] = .error .valueError := by
  have hw := exp_isWeights l h
  have hn : (0 : ℝ) < l.length := by exact_mod_cast List.length_pos_iff.mpr h
  refine ⟨⟨_, computeEss_fin l h, ?_, ?_, rfl, ?_⟩, rfl⟩
  · exact div_le_div_of_nonneg_right (one_le_ess hw) hn.le
  · rw [div_le_one hn]; simpa using ess_le_length hw
  · intro c
    have e1 : (l.map fun x => fin (x + c)) = (l.map (· + c)).map fin := by simp
    rw [e1, computeEss_fin _ (by simpa using h)]
    have e2 : (l.map (· + c)).map Real.exp = (l.map Real.exp).map (Real.exp c * ·) := by
      simp only [List.map_map]
      apply List.map_congr_left
      intro x _
      simp only [Function.comp]
      rw [← Real.exp_add]; ring_nf
    rw [e2, ess_scale _ (Real.exp_ne_zero _)]; simp

example : ([0, -3, 700] : List ℝ) ≠ [] := by simp

theorem log_sum_exp_shift (l : List ℝ) (h : l ≠ []) (m : ℝ) :
    Real.log (l.map fun x => Real.exp (x - m)).sum = Real.log (l.map Real.exp).sum - m := by
  rw [exp_sub_map, list_sum_map_mul, Real.log_mul (Real.exp_ne_zero _) (exp_isWeights l h).2.ne', Real.log_exp]; ring

theorem incrementLogz_fin (l : List ℝ) (h : l ≠ []) :
    incrementLogz (l.map fin) = .ok (fin (Real.log (l.map Real.exp).sum)) := by
  obtain ⟨m, hm, -, -⟩ := max_fin l h
  simp only [incrementLogz, hm, bind, Except.bind, pure, Except.pure]
  have e1 : (l.map fin).map (· - fin m) = (l.map (· - m)).map fin := by simp
  rw [e1, lse_fin _ (by simpa using h), List.map_map]
  have := log_sum_exp_shift l h m
  simp only [Function.comp_def] at *
  rw [this]; simp

/-- **C04.** `increment_logz` is the log of the summed exponentials; a common offset shifts it by exactly that offset. -/
theorem C04_increment_logz (l : List ℝ) (h : l ≠ []) :
    incrementLogz (l.map fin) = .ok (fin (Real.log (l.map Real.exp).sum)) ∧
    ∀ c : ℝ, incrementLogz (l.map fun x => fin (x + c)) = .ok (fin (Real.log (l.map Real.exp).sum + c)) := by
  refine ⟨incrementLogz_fin l h, fun c => ?_⟩
  have e1 : (l.map fun x => fin (x + c)) = (l.map (· + c)).map fin := by simp
  rw [e1, incrementLogz_fin _ (by simpa using h)]
  have := log_sum_exp_shift l h (-c)
  simp only [sub_neg_eq_add] at this
  simp [Function.comp_def, this]

example : ([0, -3, 700] : List ℝ) ≠ [] := by simp


/-! ### C03, C04 with zero weights, whose logarithm is `-inf` -/

theorem log_cases {x : ℝ} (hx : 0 ≤ x) : (x = 0 ∧ F.log (fin x) = ninf) ∨ (0 < x ∧ F.log (fin x) = fin (Real.log x)) := by
  rcases hx.eq_or_lt with h | h
  · exact .inl ⟨h.symm, by rw [← h]; simp [F.log]⟩
  · exact .inr ⟨h, log_fin x h⟩

theorem logaddexp_log {a b : ℝ} (ha : 0 ≤ a) (hb : 0 ≤ b) : logaddexp (F.log (fin a)) (F.log (fin b)) = F.log (fin (a + b)) := by
  rcases log_cases ha with ⟨rfl, ea⟩ | ⟨ha, ea⟩ <;> rcases log_cases hb with ⟨rfl, eb⟩ | ⟨hb, eb⟩
  · rw [ea, add_zero, ea]
    have h : feq ninf ninf := trivial
    simp only [logaddexp, h, if_true]
    rfl
  · rw [ea, zero_add, eb, logaddexp_ninf_fin]
  · rw [ea, eb, add_zero, ea]
    have h1 : (fin (Real.log a) - ninf : F) = pinf := rfl
    have h2 : (pinf : F) > 0 := trivial
    have h4 : ¬ feq (fin (Real.log a)) ninf := fun h => h
    have h5 : (-pinf : F) = ninf := rfl
    simp only [logaddexp, h1, h2, h4, h5, if_true, if_false, exp_ninf, fin_add]
    rw [log_fin _ (by norm_num)]
    simp
  · rw [ea, eb, logaddexp_fin, Real.exp_log ha, Real.exp_log hb, log_fin _ (by positivity)]

theorem lse_log {w : List ℝ} (h : ∀ x ∈ w, 0 ≤ x) : lse (w.map fun x => F.log (fin x)) = F.log (fin w.sum) := by
  have : ∀ (w : List ℝ) (a : ℝ), 0 ≤ a → (∀ x ∈ w, 0 ≤ x) → (w.map fun x => F.log (fin x)).foldl logaddexp (F.log (fin a)) = F.log (fin (a + w.sum)) := by
    intro w
    induction w with
    | nil => intro a _ _; simp
    | cons x w ih =>
      intro a ha h
      rw [List.map_cons, List.foldl_cons, logaddexp_log ha (h x (by simp)), ih _ (add_nonneg ha (h x (by simp))) fun y hy => h y (by simp [hy]),
        List.sum_cons, add_assoc]
  have h0 : F.log (fin 0) = ninf := by simp [F.log]
  unfold lse
  rw [← h0, this w 0 le_rfl h, zero_add]

theorem max_log {w : List ℝ} (h : IsWeights w) : ∃ m, F.max (w.map fun x => F.log (fin x)) = .ok (fin m) := by
  have key : ∀ (w : List ℝ) (a : F), (∀ x ∈ w, 0 ≤ x) → (a = ninf ∨ ∃ r, a = fin r) → ((∃ r, a = fin r) ∨ 0 < w.sum) →
      ∃ m, (w.map fun x => F.log (fin x)).foldl maximum a = fin m := by
    intro w
    induction w with
    | nil =>
      intro a _ _ h
      rcases h with ⟨r, h⟩ | h
      · exact ⟨r, h⟩
      · simp at h
    | cons x w ih =>
      intro a hw ha h
      rw [List.map_cons, List.foldl_cons]
      have hw' : ∀ y ∈ w, 0 ≤ y := fun y hy => hw y (by simp [hy])
      have n1 : maximum ninf ninf = ninf := by simp [maximum]
      have n2 : ∀ r, maximum ninf (fin r) = fin r := fun r => by
        have : (ninf : F) ≤ fin r := trivial
        simp [maximum, this]
      have n3 : ∀ r, maximum (fin r) ninf = fin r := fun r => by
        have : ¬ ((fin r : F) ≤ ninf) := fun h => h
        simp [maximum]
      rcases log_cases (hw x (by simp)) with ⟨hx, ex⟩ | ⟨hx, ex⟩ <;> rcases ha with rfl | ⟨r, rfl⟩ <;> rw [ex]
      · rw [n1]
        refine ih _ hw' (.inl rfl) (.inr ?_)
        rcases h with ⟨r, h⟩ | h
        · cases h
        · simpa [hx] using h
      · rw [n3]; exact ih _ hw' (.inr ⟨r, rfl⟩) (.inl ⟨r, rfl⟩)
      · rw [n2]; exact ih _ hw' (.inr ⟨_, rfl⟩) (.inl ⟨_, rfl⟩)
      · rw [maximum_fin]; exact ih _ hw' (.inr ⟨_, rfl⟩) (.inl ⟨_, rfl⟩)
  cases w with
  | nil => exact absurd h.2 (by simp)
  | cons x w =>
    have hx := h.1 x (by simp)
    obtain ⟨m, hm⟩ := key w (F.log (fin x)) (fun y hy => h.1 y (by simp [hy])) (by rcases log_cases hx with ⟨_, e⟩ | ⟨_, e⟩ <;> simp [e]) (by
      rcases log_cases hx with ⟨h0, e⟩ | ⟨_, e⟩
      · exact .inr (by simpa [h0] using h.2)
      · exact .inl ⟨_, e⟩)
    exact ⟨m, by simp only [List.map_cons, F.max, hm]⟩

theorem log_sub_shift {x : ℝ} (hx : 0 ≤ x) (m : ℝ) : F.log (fin x) - fin m = F.log (fin (Real.exp (-m) * x)) := by
  rcases log_cases hx with ⟨rfl, e⟩ | ⟨h, e⟩
  · rw [e, mul_zero]
    have : F.log (fin 0) = ninf := by simp [F.log]
    rw [this]
    rfl
  · rw [e, log_fin _ (by positivity), fin_sub, Real.log_mul (Real.exp_ne_zero _) h.ne', Real.log_exp]
    congr 1
    ring

theorem exp_log_nonneg {x : ℝ} (hx : 0 ≤ x) : exp (F.log (fin x)) = fin x := by
  rcases log_cases hx with ⟨rfl, e⟩ | ⟨h, e⟩
  · rw [e]; rfl
  · rw [e, exp_fin, Real.exp_log h]

/-- **C03 and C04 for weights that may be zero.** For every usable weight vector `w`, `compute_ess(np.log(w))` is the effective sample size of `w`
over the number of weights and `increment_logz(np.log(w))` the logarithm of the total weight (a zero weight has the log-weight `-inf`). -/
theorem C03_zero_weights (w : List ℝ) (h : IsWeights w) :
    computeEss (w.map fun x => F.log (fin x)) = .ok (fin (ess w / w.length)) ∧ 1 / (w.length : ℝ) ≤ ess w / w.length ∧ ess w / w.length ≤ 1 ∧
    incrementLogz (w.map fun x => F.log (fin x)) = .ok (fin (Real.log w.sum)) := by
  obtain ⟨m, hm⟩ := max_log h
  have hne : w ≠ [] := by
    rintro rfl
    exact absurd h.2 (by simp)
  have hn : (0 : ℝ) < w.length := by exact_mod_cast List.length_pos_iff.mpr hne
  set v : List ℝ := w.map (Real.exp (-m) * ·) with hv
  have hvs : v.sum = Real.exp (-m) * w.sum := by rw [hv, list_sum_map_mul]
  have hvp : 0 < v.sum := by rw [hvs]; exact mul_pos (Real.exp_pos _) h.2
  have hv0 : ∀ x ∈ v, 0 ≤ x := by
    intro x hx
    obtain ⟨y, hy, rfl⟩ := List.mem_map.mp hx
    exact mul_nonneg (Real.exp_pos _).le (h.1 y hy)
  have e0 : (w.map fun x => F.log (fin x)).map (· - fin m) = v.map fun x => F.log (fin x) := by
    rw [hv, List.map_map, List.map_map]
    apply List.map_congr_left
    intro x hx
    exact log_sub_shift (h.1 x hx) m
  have e1 : (v.map fun x => F.log (fin x)).map exp = v.map fin := by
    rw [List.map_map]
    apply List.map_congr_left
    intro x hx
    exact exp_log_nonneg (hv0 x hx)
  have e2 : ((v.map fun x => F.log (fin x)).map fun x => exp x / sum (v.map fin)) = (v.map (· / v.sum)).map fin := by
    rw [← normalize_fin v hvp.ne', normalize, ← e1]
    simp [Function.comp_def]
  refine ⟨?_, div_le_div_of_nonneg_right (one_le_ess h) hn.le, by rw [div_le_one hn]; exact ess_le_length h, ?_⟩
  · have e3 : ∀ x : List F, (x.map fun w => w * w) = x.map sq := fun x => rfl
    simp only [computeEss, hm, bind, Except.bind, pure, Except.pure]
    rw [e0, e1, e2, e3]
    have := invSumSq_fin (v.map (· / v.sum)) (by rw [sum_normalized hvp.ne']; norm_num)
    unfold invSumSq at this
    rw [this, inv_sumsq_normalized hvp.ne']
    have hl : (List.map fin (List.map (fun x => x / v.sum) v)).length = w.length := by simp [hv]
    rw [hl, F.ofNat, fin_div _ _ hn.ne', hv, ess_scale _ (Real.exp_ne_zero _)]
  · simp only [incrementLogz, hm, bind, Except.bind, pure, Except.pure]
    rw [e0, lse_log hv0, log_fin _ hvp, hvs, Real.log_mul (Real.exp_ne_zero _) h.2.ne', Real.log_exp, fin_add]
    congr 2
    ring

/-- **C03, C04, all weights zero.** When every log-weight is `-inf`, both functions return NaN and do not raise. -/
theorem C03_all_zero (n : ℕ) (hn : 0 < n) :
    computeEss (List.replicate n ninf) = .ok nan ∧ incrementLogz (List.replicate n ninf) = .ok nan := by
  obtain ⟨k, rfl⟩ : ∃ k, n = k + 1 := ⟨n - 1, by omega⟩
  have hm : F.max (List.replicate (k + 1) ninf) = .ok ninf := by
    have : ∀ k, (List.replicate k ninf).foldl maximum ninf = ninf := by
      intro k
      induction k with
      | zero => rfl
      | succ k ih =>
        have n1 : maximum ninf ninf = ninf := by simp [maximum]
        rw [List.replicate_succ, List.foldl_cons, n1]; exact ih
    simp only [List.replicate_succ, F.max, this]
  have hd : (List.replicate (k + 1) ninf).map (· - ninf) = List.replicate (k + 1) nan := by
    rw [List.map_replicate]; rfl
  constructor
  · simp only [computeEss, hm, bind, Except.bind, pure, Except.pure]
    rw [hd]
    have : ∀ s, nan ∈ ((List.replicate (k + 1) nan).map fun x => exp x / s).map fun w => w * w := by
      intro s
      simp only [List.map_replicate]
      exact List.mem_replicate.mpr ⟨by omega, rfl⟩
    rw [sum_nan (this _)]
    rfl
  · simp only [incrementLogz, hm, bind, Except.bind, pure, Except.pure]
    have ln : ∀ a, logaddexp a nan = nan := by
      intro a
      have h1 : a - nan = nan := by cases a <;> rfl
      have h2 : ¬ feq a nan := by cases a <;> exact fun h => h
      have h3 : ¬ ((nan : F) > 0) := fun h => h
      have h4 : ¬ ((nan : F) ≤ 0) := fun h => h
      simp only [logaddexp, h1, h2, h3, h4, if_false]
    have : ∀ k a, (List.replicate (k + 1) nan).foldl logaddexp a = nan := by
      intro k
      induction k with
      | zero => intro a; exact ln a
      | succ k ih => intro a; rw [List.replicate_succ, List.foldl_cons]; exact ih _
    rw [hd, lse, this]
    rfl

example : IsWeights [0, 3, 0, 1] := ⟨by simp, by norm_num⟩

end Poco
