import Verif.Props.Double
import Verif.Lemmas.Trim

/-! # C123: trimming in double precision -/

namespace Poco
open F Spec

variable {A : Arith}

theorem exists_max {l : List ℝ} (h : l ≠ []) : ∃ x ∈ l, ∀ y ∈ l, y ≤ x := by
  obtain ⟨x, hx, hm⟩ := Finset.exists_max_image l.toFinset id (by
    obtain ⟨a, ha⟩ := List.exists_mem_of_ne_nil l h
    exact ⟨a, List.mem_toFinset.mpr ha⟩)
  exact ⟨x, List.mem_toFinset.mp hx, fun y hy => hm y (List.mem_toFinset.mpr hy)⟩

theorem exists_min {l : List ℝ} (h : l ≠ []) : ∃ x ∈ l, ∀ y ∈ l, x ≤ y := by
  obtain ⟨x, hx, hm⟩ := Finset.exists_min_image l.toFinset id (by
    obtain ⟨a, ha⟩ := List.exists_mem_of_ne_nil l h
    exact ⟨a, List.mem_toFinset.mpr ha⟩)
  exact ⟨x, List.mem_toFinset.mp hx, fun y hy => hm y (List.mem_toFinset.mpr hy)⟩

/-- The effective sample size the loop computes for the weights it keeps. -/
noncomputable def essD (A : Arith) (k : List ℝ) : ℝ :=
  A.rnd (1 / A.total ((k.map fun x => A.rnd (x / A.total k)).map fun x => A.rnd (x ^ 2)))

/-- One evaluation of the loop body. -/
theorem trimLoopD_step {α : Type*} (hA : IsDouble A) (samples : List α) (v : List ℝ) (hl : samples.length = v.length)
    (e T : ℝ) (hT : 0 < T) (grid : List ℝ) (i : ℤ) (p : ℝ) (hz : pyGet? grid i = some p)
    (hk : Usable (v.filter fun x => decide (A.pct v p ≤ x))) :
    trimLoopD A samples (v.map fin) (fin T) (fin e) grid i =
      if e ≤ A.rnd (essD A (v.filter fun x => decide (A.pct v p ≤ x)) / T) then
        .ok (((samples.zip v).filter fun q => decide (A.pct v p ≤ q.2)).map (·.1),
          (normalizeD A ((v.filter fun x => decide (A.pct v p ≤ x)).map fin)))
      else trimLoopD A samples (v.map fin) (fin T) (fin e) grid (i - 1) := by
  obtain ⟨h1, h2, -⟩ := ess_close hA hk (hA.total _) (hA.total _)
  have hpct : A.percentile (v.map fin) p = fin (A.pct v p) := by
    unfold Arith.percentile
    rw [if_pos (all_finite v), val_fin]
  have hmask : (v.map fin).map (fun x => decide (fin (A.pct v p) ≤ x)) = v.map fun x => decide (A.pct v p ≤ x) := by simp
  have hsel : maskSelect (v.map fun x => decide (A.pct v p ≤ x)) (v.map fin) = (v.filter fun x => decide (A.pct v p ≤ x)).map fin := by
    have := maskSelect_self (fun x : F => decide (fin (A.pct v p) ≤ x)) (v.map fin)
    rw [hmask] at this
    rw [this, List.filter_map]
    simp [Function.comp_def]
  have hsame := maskSelect_map (fun x => decide (A.pct v p ≤ x)) v samples hl
  rw [trimLoopD]
  split
  · rename_i heq; rw [hz] at heq; cases heq
  · rename_i p' heq
    rw [hz] at heq
    simp only [Option.some.injEq] at heq
    subst heq
    rw [hpct]
    simp only [hmask, hsel]
    have hinv : invSumSqD A (normalizeD A ((v.filter fun x => decide (A.pct v p ≤ x)).map fin)) =
        fin (essD A (v.filter fun x => decide (A.pct v p ≤ x))) := by
      rw [normalizeD_fin h1.ne', invSumSqD_fin h2.ne']
      rfl
    rw [hinv, fin_div _ _ hT.ne']
    simp only [Arith.round, fin_le, hsame, List.length_map, hl, if_true]

/-- Weights close to given ones have a close effective sample size. -/
theorem ess_of_close {x y : List ℝ} {n : ℝ} (hc : Close (n * 2⁻¹ ^ 50) eta x y) (hn : 1 ≤ n) (hf : n ≤ 2 ^ 40) (hl : (y.length : ℝ) ≤ n)
    (hy : ∀ t ∈ y, 0 ≤ t ∧ t ≤ 1) (hs : 2⁻¹ ^ 50 ≤ y.sum) :
    |x.sum - y.sum| ≤ n * 2⁻¹ ^ 49 * y.sum ∧ |ess x - ess y| ≤ n * 2⁻¹ ^ 46 * ess y := by
  have he := eta_pos
  have hu := uu_pos
  have hT0 : 0 < y.sum := lt_of_lt_of_le (by positivity) hs
  have ha1 : n * 2⁻¹ ^ 50 ≤ 2⁻¹ ^ 10 := by
    calc n * 2⁻¹ ^ 50 ≤ 2 ^ 40 * 2⁻¹ ^ 50 := mul_le_mul_of_nonneg_right hf (by positivity)
      _ = 2⁻¹ ^ 10 := by norm_num
  have hn0 : 0 ≤ n := by linarith
  have hQ : 2⁻¹ ^ 140 ≤ (y.map (· ^ 2)).sum := by
    have h1 := list_sq_sum_le y
    have h2 := list_sum_sq_nonneg y
    have h3 : (y.length : ℝ) * (y.map (· ^ 2)).sum ≤ 2 ^ 40 * (y.map (· ^ 2)).sum := mul_le_mul_of_nonneg_right (hl.trans hf) h2
    have h4 : (2⁻¹ ^ 50 : ℝ) ^ 2 ≤ y.sum ^ 2 := pow_le_pow_left₀ (by positivity) hs 2
    have h5 : (2⁻¹ : ℝ) ^ 140 * 2 ^ 40 = (2⁻¹ ^ 50) ^ 2 := by norm_num
    have h6 : (2⁻¹ : ℝ) ^ 140 * 2 ^ 40 ≤ (y.map (· ^ 2)).sum * 2 ^ 40 := by rw [h5]; linarith
    exact le_of_mul_le_mul_right h6 (by positivity)
  have small : ∀ z : ℝ, 2⁻¹ ^ 140 ≤ z → n * eta ≤ n * 2⁻¹ ^ 52 * z := by
    intro z hz
    have h1 := eta_le_uu (x := z) ((pow_le_pow_of_le_one (by norm_num) (by norm_num) (by norm_num : 140 ≤ 400)).trans hz)
    have hz0 : 0 ≤ z := le_trans (by positivity) hz
    have h2 : uu * 2⁻¹ ^ 500 * z ≤ 2⁻¹ ^ 52 * z := by
      apply mul_le_mul_of_nonneg_right _ hz0
      have : uu * 2⁻¹ ^ 500 ≤ uu * 1 := mul_le_mul_of_nonneg_left (pow_le_one₀ (by norm_num) (by norm_num)) hu.le
      have h3 : uu ≤ 2⁻¹ ^ 52 := by unfold uu; exact pow_le_pow_of_le_one (by norm_num) (by norm_num) (by norm_num)
      exact this.trans (by rw [mul_one]; exact h3)
    have := mul_le_mul_of_nonneg_left (h1.trans h2) hn0
    linarith
  have s1 := hc.sum
  have e1 : (y.length : ℝ) * eta ≤ n * eta := mul_le_mul_of_nonneg_right hl he.le
  have e2 := small y.sum ((pow_le_pow_of_le_one (by norm_num) (by norm_num) (by norm_num)).trans hs)
  have k1 : |x.sum - y.sum| ≤ n * 2⁻¹ ^ 49 * y.sum := by
    have : n * 2⁻¹ ^ 52 * y.sum ≤ n * 2⁻¹ ^ 50 * y.sum := mul_le_mul_of_nonneg_right (mul_le_mul_of_nonneg_left (by norm_num) hn0) hT0.le
    have h3 : n * 2⁻¹ ^ 49 * y.sum = n * 2⁻¹ ^ 50 * y.sum + n * 2⁻¹ ^ 50 * y.sum := by ring
    linarith
  refine ⟨k1, ?_⟩
  have hsq : Close (3 * (n * 2⁻¹ ^ 50)) (4 * eta) (x.map (· ^ 2)) (y.map (· ^ 2)) := by
    apply hc.map
    intro s t ht hst
    exact sq_close (by positivity) (ha1.trans (by norm_num)) he.le (by unfold eta; exact pow_le_one₀ (by norm_num) (by norm_num)) (hy t ht).1 (hy t ht).2 hst
  have s2 := hsq.sum
  rw [List.length_map] at s2
  have e3 := small _ hQ
  have hQ0 : 0 ≤ (y.map (· ^ 2)).sum := list_sum_sq_nonneg y
  have k2 : |(x.map (· ^ 2)).sum - (y.map (· ^ 2)).sum| ≤ n * 2⁻¹ ^ 48 * (y.map (· ^ 2)).sum := by
    have h3 : n * 2⁻¹ ^ 48 * (y.map (· ^ 2)).sum = 3 * (n * 2⁻¹ ^ 50) * (y.map (· ^ 2)).sum + 4 * (n * 2⁻¹ ^ 52 * (y.map (· ^ 2)).sum) := by ring
    rw [h3]
    have : (y.length : ℝ) * (4 * eta) ≤ 4 * (n * 2⁻¹ ^ 52 * (y.map (· ^ 2)).sum) := by linarith
    linarith
  have c1 : n * 2⁻¹ ^ 49 ≤ 1 / 8 := by
    have : n * 2⁻¹ ^ 49 = 2 * (n * 2⁻¹ ^ 50) := by ring
    have h2 : (2⁻¹ : ℝ) ^ 10 ≤ 1 / 64 := by norm_num
    linarith
  have c2 : n * 2⁻¹ ^ 48 ≤ 1 / 8 := by
    have : n * 2⁻¹ ^ 48 = 4 * (n * 2⁻¹ ^ 50) := by ring
    have h2 : (2⁻¹ : ℝ) ^ 10 ≤ 1 / 64 := by norm_num
    linarith
  have k3 := kish_close hT0 (lt_of_lt_of_le (by positivity) hQ) (by positivity) c1 (by positivity) c2 k1 k2
  refine k3.trans (mul_le_mul_of_nonneg_right ?_ (div_nonneg (sq_nonneg _) hQ0))
  have : n * 2⁻¹ ^ 46 = 8 * (n * 2⁻¹ ^ 49) := by ring
  have h2 : n * 2⁻¹ ^ 48 = 2 * (n * 2⁻¹ ^ 49) := by ring
  have h3 : 0 ≤ n * 2⁻¹ ^ 49 := by positivity
  linarith


theorem trimLoopD_ends {α : Type*} (hA : IsDouble A) (samples : List α) (v : List ℝ) (hl : samples.length = v.length) (hv : v ≠ [])
    (e T : ℝ) (hT : 0 < T) (bins : ℕ)
    (hk : ∀ t : ℝ, (∃ b ∈ v, t ≤ b) → Usable (v.filter fun x => decide (t ≤ x)))
    (h0 : e ≤ A.rnd (essD A v / T)) : ∀ i : ℕ, i < bins →
    ∃ t : ℝ, (∃ b ∈ v, t ≤ b) ∧ e ≤ A.rnd (essD A (v.filter fun x => decide (t ≤ x)) / T) ∧
      trimLoopD A samples (v.map fin) (fin T) (fin e) ((percentileGrid bins).map A.rnd) i =
        .ok (((samples.zip v).filter fun q => decide (t ≤ q.2)).map (·.1), normalizeD A ((v.filter fun x => decide (t ≤ x)).map fin)) := by
  have hget : ∀ i : ℕ, i < bins → pyGet? ((percentileGrid bins).map A.rnd) (i : ℤ) = some (A.rnd (gridPoint bins i)) := by
    intro i hi
    unfold pyGet?
    rw [if_pos (by omega), Int.toNat_natCast, List.getElem?_map, percentileGrid_get bins i hi]
    rfl
  have hrange : ∀ i : ℕ, i < bins → ∃ b ∈ v, A.pct v (A.rnd (gridPoint bins i)) ≤ b := by
    intro i hi
    obtain ⟨g0, g1⟩ := gridPoint_range bins i hi
    refine hA.pct_le v hv _ (hA.nonneg g0) ?_
    have := hA.nat 100 (by norm_num)
    rw [show ((100 : ℕ) : ℝ) = 100 by norm_num] at this
    rw [← this]
    exact hA.mono g1
  intro i
  induction i with
  | zero =>
    intro hi
    have h1 := hrange 0 hi
    have hz : A.rnd (gridPoint bins 0) = 0 := by unfold gridPoint; simp [hA.zero]
    have hall : (v.filter fun x => decide (A.pct v (A.rnd (gridPoint bins 0)) ≤ x)) = v := by
      rw [hz, List.filter_eq_self]
      intro x hx
      simpa using (hA.pct_zero v hv).2 x hx
    refine ⟨_, h1, by rw [hall]; exact h0, ?_⟩
    rw [trimLoopD_step hA samples v hl e T hT _ _ _ (hget 0 hi) (hk _ h1), if_pos (by rw [hall]; exact h0)]
  | succ i ih =>
    intro hi
    have h1 := hrange (i + 1) hi
    by_cases hc : e ≤ A.rnd (essD A (v.filter fun x => decide (A.pct v (A.rnd (gridPoint bins (i + 1))) ≤ x)) / T)
    · refine ⟨_, h1, hc, ?_⟩
      rw [trimLoopD_step hA samples v hl e T hT _ _ _ (hget (i + 1) hi) (hk _ h1), if_pos hc]
    · obtain ⟨t, a1, a2, a3⟩ := ih (by omega)
      refine ⟨t, a1, a2, ?_⟩
      rw [trimLoopD_step hA samples v hl e T hT _ _ _ (hget (i + 1) hi) (hk _ h1), if_neg hc, ← a3]
      congr 1
      push_cast
      ring

theorem zip_map_filter {α : Type*} (f : ℝ → ℝ) (P : ℝ → Bool) (samples : List α) (w : List ℝ) :
    ((samples.zip (w.map f)).filter fun q => P q.2).map (·.1) = ((samples.zip w).filter fun q => P (f q.2)).map (·.1) := by
  rw [List.zip_map_right, List.filter_map, List.map_map]
  rfl

theorem slack {e x u : ℝ} (h0 : 0 ≤ e - 4 * x) (h1 : e ≤ 1 - 4 * x) (hx : 0 ≤ x) (hx1 : x ≤ 1 / 64) (hu : 0 ≤ u) (hux : u ≤ x / 64) :
    (e - 4 * x) * (1 + x) ^ 2 ≤ (e - 2 * u) * (1 - x) := by
  have e1 : e * (2 * x + x ^ 2) ≤ 1 * (2 * x + x ^ 2) := mul_le_mul_of_nonneg_right (by linarith) (by positivity)
  have e2 : 4 * x * 1 ≤ 4 * x * (1 + x) ^ 2 := mul_le_mul_of_nonneg_left (by nlinarith) (by positivity)
  have e3 : e * x ≤ 1 * x := mul_le_mul_of_nonneg_right (by linarith) hx
  have e4 : 0 ≤ u * x := mul_nonneg hu hx
  have e5 : x ^ 2 ≤ x / 64 := by nlinarith
  have e6 : (e - 4 * x) * (1 + x) ^ 2 = e + e * (2 * x + x ^ 2) - 4 * x * (1 + x) ^ 2 := by ring
  have e7 : (e - 2 * u) * (1 - x) = e - e * x - 2 * u + 2 * (u * x) := by ring
  rw [e6, e7]
  linarith

/-- Renormalising computed weights gives the renormalised exact weights up to rounding. -/
theorem renorm_close (hA : IsDouble A) {kv kw : List ℝ} {n W : ℝ} (hk : Usable kv) (hc : Close (n * 2⁻¹ ^ 50) eta kv (kw.map fun y => y / W))
    (hW : 0 < W) (hn : 1 ≤ n) (hf : n ≤ 2 ^ 40) (hl1 : (kv.length : ℝ) ≤ n) (hl2 : (kw.length : ℝ) ≤ n) (h0 : ∀ y ∈ kw, 0 ≤ y)
    (hs : 2⁻¹ ^ 50 ≤ (kw.map fun y => y / W).sum) :
    Close (n * 2⁻¹ ^ 47) (2⁻¹ ^ 900) (kv.map fun y => A.rnd (y / A.total kv)) (kw.map fun y => y / kw.sum) := by
  have heta := eta_pos
  set P := kw.map fun y => y / W with hP
  have hPs : P.sum = kw.sum / W := list_sum_map_div W kw
  have hP0 : 0 < P.sum := lt_of_lt_of_le (by positivity) hs
  have ha1 : n * 2⁻¹ ^ 50 ≤ 2⁻¹ ^ 10 := by
    calc n * 2⁻¹ ^ 50 ≤ 2 ^ 40 * 2⁻¹ ^ 50 := mul_le_mul_of_nonneg_right hf (by positivity)
      _ = 2⁻¹ ^ 10 := by norm_num
  set a := n * 2⁻¹ ^ 50 with had
  have ha0 : 0 ≤ a := by positivity
  have ha2 : a ≤ 1 / 16 := ha1.trans (by norm_num)
  have hPn : ∀ y ∈ P, 0 ≤ y := by
    intro y hy
    obtain ⟨z, hz, rfl⟩ := List.mem_map.mp hy
    exact div_nonneg (h0 z hz) hW.le
  have c1 : Close a (2 ^ 50 * eta) (kv.map (· / P.sum)) (P.map (· / P.sum)) := by
    apply hc.map
    intro s t ht hst
    rw [← sub_div, abs_div, abs_of_pos hP0, div_le_iff₀ hP0]
    have e1 : (a * (t / P.sum) + 2 ^ 50 * eta) * P.sum = a * t + 2 ^ 50 * eta * P.sum := by field_simp
    rw [e1]
    have e2 : (2 : ℝ) ^ 50 * eta * 2⁻¹ ^ 50 ≤ 2 ^ 50 * eta * P.sum := mul_le_mul_of_nonneg_left hs (by positivity)
    have e3 : (2 : ℝ) ^ 50 * eta * 2⁻¹ ^ 50 = eta := by
      rw [mul_comm ((2 : ℝ) ^ 50), mul_assoc, ← mul_pow]; norm_num
    linarith
  have hP1 : (P.map (· / P.sum)).sum = 1 := sum_normalized hP0.ne'
  have hlen : (P.map (· / P.sum)).length = kw.length := by rw [List.length_map, hP, List.length_map]
  have heta2 : eta ≤ 2⁻¹ ^ 140 := by unfold eta; exact pow_le_pow_of_le_one (by norm_num) (by norm_num) (by norm_num)
  have hb : ((P.map (· / P.sum)).length : ℝ) * (2 ^ 50 * eta) ≤ a * (P.map (· / P.sum)).sum := by
    rw [hP1, hlen, mul_one]
    have e1 : (2 : ℝ) ^ 50 * eta ≤ 2⁻¹ ^ 50 := by
      calc (2 : ℝ) ^ 50 * eta ≤ 2 ^ 50 * 2⁻¹ ^ 140 := mul_le_mul_of_nonneg_left heta2 (by positivity)
        _ ≤ 2⁻¹ ^ 50 := by norm_num
    exact mul_le_mul hl2 e1 (by positivity) (by linarith)
  obtain ⟨-, c2⟩ := c1.normalize ha0 ha2 (by positivity) hb
    (fun t ht => by obtain ⟨y, hy, rfl⟩ := List.mem_map.mp ht; exact div_nonneg (hPn y hy) hP0.le)
    (fun t ht => by obtain ⟨y, hy, rfl⟩ := List.mem_map.mp ht; exact div_nonneg (hk.nonneg y hy) hP0.le) hP1.ge
  have e1 : (kv.map (· / P.sum)).map (· / (kv.map (· / P.sum)).sum) = kv.map fun y => y / kv.sum := by
    rw [list_sum_map_div, List.map_map]
    apply List.map_congr_left
    intro y _
    simp only [Function.comp]
    rw [div_div_div_cancel_right₀ hP0.ne']
  have e2 : (P.map (· / P.sum)).map (· / (P.map (· / P.sum)).sum) = kw.map fun y => y / kw.sum := by
    rw [hP1, hPs, List.map_map, hP, List.map_map]
    apply List.map_congr_left
    intro y _
    simp only [Function.comp]
    rw [div_one, div_div_div_cancel_right₀ hW.ne']
  rw [e1, e2] at c2
  have hkw0 : 0 ≤ kw.sum := List.sum_nonneg h0
  have hk1 := hk.probs
  have c3 : Close a eta (kv.map fun y => A.rnd (y / A.total kv)) (kv.map fun y => y / kv.sum) :=
    (normal_close hA hk (sum_close hA hk (hA.total kv))).mono (mul_le_mul_of_nonneg_right hl1 (by positivity)) le_rfl hk1.nonneg
  refine (c3.trans c2 ha0).mono ?_ ?_ ?_
  · have : n * 2⁻¹ ^ 47 = 8 * a := by rw [had]; ring
    rw [this]
    nlinarith
  · have f1 : eta ≤ 2⁻¹ ^ 960 := by unfold eta; exact pow_le_pow_of_le_one (by norm_num) (by norm_num) (by norm_num)
    have f2 : (2⁻¹ : ℝ) ^ 900 = 2 ^ 60 * 2⁻¹ ^ 960 := by
      rw [show (960 : ℕ) = 60 + 900 by norm_num, pow_add, ← mul_assoc, ← mul_pow]; norm_num
    rw [f2]
    have f3 : (0 : ℝ) < 2⁻¹ ^ 960 := by positivity
    generalize (2⁻¹ : ℝ) ^ 960 = y at *
    have f4 : a * (2 * (2 ^ 50 * eta)) ≤ 1 * (2 * (2 ^ 50 * eta)) := mul_le_mul_of_nonneg_right (by linarith) (by positivity)
    have f5 : (2 : ℝ) ^ 60 = 1024 * 2 ^ 50 := by norm_num
    have f6 : eta ≤ 2 ^ 50 * eta := le_mul_of_one_le_left heta.le (by norm_num)
    have f7 : (2 : ℝ) ^ 50 * eta ≤ 2 ^ 50 * y := mul_le_mul_of_nonneg_left f1 (by positivity)
    rw [f5]
    linarith
  · intro t ht
    obtain ⟨y, hy, rfl⟩ := List.mem_map.mp ht
    exact div_nonneg (h0 y hy) hkw0

/-- **C123.** In double precision, whatever the order of additions, `trim_weights` returns for every usable weight vector (`n` weights) and every
target `ess` up to `1 - n·2⁻⁴⁴` (so for the default 0.99 with up to `2³⁷` weights): it keeps exactly the (sample, weight) pairs of weight at least some
`t`, at least one of them, in order; the returned weights are those pairs' weights divided by their sum, each up to the relative error `n·2⁻⁴⁷` (and an
absolute one of `2⁻⁹⁰⁰`), doubles between 0 and 1, with sum 1 up to `k·2⁻⁴⁹` for `k` kept pairs; and the effective sample size of the kept weights is at least `ess - n·2⁻⁴⁴`
times that of all the weights. -/
theorem C123_trim {α : Type*} (hA : IsDouble A) (samples : List α) (w : List ℝ) (h : IsWeights w) (hbig : 2⁻¹ ^ 200 ≤ w.sum) (hN : w.length ≤ 2 ^ 40)
    (hl : samples.length = w.length) (e : ℝ) (he : e ≤ 1 - w.length * 2⁻¹ ^ 44) (bins : ℕ) (hb : 1 ≤ bins) :
    ∃ r, trimWeightsD A samples (w.map fin) (fin e) bins = .ok r ∧
      ∃ t : ℝ, ∃ kept : List (α × ℝ), kept = (samples.zip w).filter (fun q => decide (t ≤ q.2)) ∧ kept ≠ [] ∧
        r.samples = kept.map (·.1) ∧
        (∃ z : List ℝ, r.weights = z.map fin ∧ (∀ x ∈ z, 0 ≤ x ∧ x ≤ 1 ∧ A.rnd x = x) ∧ |z.sum - 1| ≤ z.length * 2⁻¹ ^ 49 ∧
          List.Forall₂ (fun x (q : α × ℝ) => |x - q.2 / (kept.map (·.2)).sum| ≤
            w.length * 2⁻¹ ^ 47 * (q.2 / (kept.map (·.2)).sum) + 2⁻¹ ^ 900) z kept) ∧
        (e - w.length * 2⁻¹ ^ 44) * ess w ≤ ess (kept.map (·.2)) := by
  have hu := uu_pos
  have heta := eta_pos
  have hus : Usable w := ⟨h.1, hbig, hN⟩
  have hn := hus.one_le
  have hf := hus.few'
  have hsum := sum_close hA hus (hA.total w)
  obtain ⟨v, E, hess, hv, hS, hcv, hE⟩ := effectiveSampleSizeD_fin hA hus
  set n : ℝ := (w.length : ℝ) with hnd
  set S := A.total w with hSd
  set f : ℝ → ℝ := fun x => A.rnd (x / S) with hfd
  have hfm : Monotone f := fun x y hxy => hA.mono (div_le_div_of_nonneg_right hxy hS.le)
  have hx46 : n * 2⁻¹ ^ 46 ≤ 2⁻¹ ^ 6 := by
    calc n * 2⁻¹ ^ 46 ≤ 2 ^ 40 * 2⁻¹ ^ 46 := mul_le_mul_of_nonneg_right hf (by positivity)
      _ = 2⁻¹ ^ 6 := by norm_num
  set x : ℝ := n * 2⁻¹ ^ 46 with hxd
  have hx0 : 0 < x := by positivity
  have hx1 : x ≤ 1 / 64 := hx46.trans (by norm_num)
  have hessw := ess_pos hus.isWeights
  -- the total
  have hE2 := abs_le.mp hE
  have hEpos : 0 < E := by
    have : x * ess w ≤ 1 / 64 * ess w := mul_le_mul_of_nonneg_right hx1 hessw.le
    linarith [hE2.1]
  have hnorm : normalizeD A (w.map fin) = v.map fin := by
    have := congrArg Prod.fst hess
    simpa [effectiveSampleSizeD] using this
  have hinv : invSumSqD A (v.map fin) = fin E := by
    have := congrArg Prod.snd hess
    simp only [effectiveSampleSizeD] at this
    rwa [hnorm] at this
  -- properties of v
  have hv0 : ∀ y ∈ v, 0 ≤ y := by
    intro y hy
    rw [hv] at hy
    obtain ⟨z, hz, rfl⟩ := List.mem_map.mp hy
    exact hA.nonneg (div_nonneg (h.1 z hz) hS.le)
  have hvlen : v.length = w.length := by rw [hv, List.length_map]
  have hvn : v ≠ [] := by
    intro hc
    have := hvlen
    rw [hc] at this
    exact hus.ne_nil (List.length_eq_zero_iff.mp this.symm)
  have hpr := hus.probs
  have hp01 : ∀ y ∈ (w.map fun x => x / w.sum), 0 ≤ y ∧ y ≤ 1 := fun y hy => ⟨hpr.nonneg y hy, hpr.le_one hy⟩
  obtain ⟨hvs, hve⟩ := ess_of_close hcv hn hf (by rw [List.length_map]) hp01 (by rw [hpr.sum]; exact pow_le_one₀ (by norm_num) (by norm_num))
  have hessp : ess (w.map fun x => x / w.sum) = ess w := by
    have : (w.map fun x => x / w.sum) = w.map ((w.sum)⁻¹ * ·) := by
      apply List.map_congr_left; intro y _; rw [div_eq_inv_mul]
    rw [this, ess_scale _ (inv_ne_zero hus.pos.ne')]
  rw [hpr.sum] at hvs
  rw [hessp, ← hxd] at hve
  have hvs' := abs_le.mp hvs
  have hvsum : 1 / 2 ≤ v.sum := by
    have : n * 2⁻¹ ^ 49 * 1 ≤ 1 / 2 := by
      have : n * 2⁻¹ ^ 49 = x / 8 := by rw [hxd]; ring
      linarith
    linarith
  -- the largest weight
  obtain ⟨b, hb1, hb2⟩ := exists_max hvn
  have hbbig : 2⁻¹ ^ 41 ≤ b := by
    have h1 : v.sum ≤ v.length * b := by
      have := List.sum_le_card_nsmul v b hb2
      simpa using this
    rw [hvlen, ← hnd] at h1
    have hb0 : 0 ≤ b := hv0 b hb1
    have h2 : n * b ≤ 2 ^ 40 * b := mul_le_mul_of_nonneg_right hf hb0
    have h3 : (2⁻¹ : ℝ) ^ 41 * 2 ^ 40 = 1 / 2 := by norm_num
    refine le_of_mul_le_mul_right (a := (2 : ℝ) ^ 40) ?_ (by positivity)
    rw [h3, mul_comm b]
    exact hvsum.trans (h1.trans h2)
  have hku : ∀ t : ℝ, (∃ c ∈ v, t ≤ c) → Usable (v.filter fun y => decide (t ≤ y)) := by
    rintro t ⟨c, hc1, hc2⟩
    refine ⟨fun y hy => hv0 y (List.mem_filter.mp hy).1, ?_, ?_⟩
    · have hbm : b ∈ v.filter fun y => decide (t ≤ y) := List.mem_filter.mpr ⟨hb1, by simpa using hc2.trans (hb2 c hc1)⟩
      have h1 := List.single_le_sum (fun y hy => hv0 y (List.mem_filter.mp hy).1) b hbm
      have h2 : (2⁻¹ : ℝ) ^ 200 ≤ 2⁻¹ ^ 41 := by norm_num
      linarith
    · exact (List.length_filter_le _ _).trans (by rw [hvlen]; exact hN)
  have hkess : ∀ k : List ℝ, Usable k → k.length ≤ w.length → |essD A k - ess k| ≤ x * ess k := by
    intro k hk hkl
    obtain ⟨-, -, h3⟩ := ess_close hA hk (hA.total k) (hA.total _)
    refine h3.trans (mul_le_mul_of_nonneg_right ?_ (ess_pos hk.isWeights).le)
    rw [hxd, hnd]
    exact mul_le_mul_of_nonneg_right (by exact_mod_cast hkl) (by positivity)
  have hvU : Usable v := by
    obtain ⟨m, hm1, hm2⟩ := exists_min hvn
    have := hku m ⟨m, hm1, le_rfl⟩
    rwa [List.filter_eq_self.mpr fun y hy => by simpa using hm2 y hy] at this
  have hux : uu ≤ x / 64 := by
    have h1 : (1 : ℝ) * 2⁻¹ ^ 46 ≤ x := mul_le_mul_of_nonneg_right hn (by positivity)
    have h2 : uu ≤ 1 * 2⁻¹ ^ 46 / 64 := by unfold uu; norm_num
    linarith
  have hetau : eta ≤ uu := by
    unfold eta uu; exact pow_le_pow_of_le_one (by norm_num) (by norm_num) (by norm_num)
  have he4 : w.length * (2⁻¹ : ℝ) ^ 44 = 4 * x := by rw [hxd, hnd]; ring
  rw [he4] at he ⊢
  have hstart : e ≤ A.rnd (essD A v / E) := by
    have h1 := (abs_le.mp (hkess v hvU (by rw [hvlen]))).1
    have h2 := (abs_le.mp hve).1
    have h3 : 1 - 3 * x ≤ essD A v / E := by
      rw [le_div_iff₀ hEpos]
      have h4 : (1 - x) * ((1 - x) * ess w) ≤ essD A v := by
        have : (1 - x) * ((1 - x) * ess w) ≤ (1 - x) * ess v := mul_le_mul_of_nonneg_left (by linarith) (by linarith)
        linarith
      have h5 : (1 - 3 * x) * E ≤ (1 - 3 * x) * ((1 + x) * ess w) := mul_le_mul_of_nonneg_left (by linarith [hE2.2]) (by linarith)
      have h6 : (1 - 3 * x) * ((1 + x) * ess w) ≤ (1 - x) * ((1 - x) * ess w) := by
        have : (1 - 3 * x) * (1 + x) ≤ (1 - x) * (1 - x) := by nlinarith
        calc _ = (1 - 3 * x) * (1 + x) * ess w := by ring
          _ ≤ (1 - x) * (1 - x) * ess w := mul_le_mul_of_nonneg_right this hessw.le
          _ = _ := by ring
      linarith
    have h7 := hA.mono h3
    have h8 := (abs_le.mp (hA.err (1 - 3 * x))).1
    rw [abs_of_pos (by linarith : 0 < 1 - 3 * x)] at h8
    have h9 : uu * (1 - 3 * x) ≤ uu * 1 := mul_le_mul_of_nonneg_left (by linarith) hu.le
    linarith
  obtain ⟨t, ht1, ht2, ht3⟩ := trimLoopD_ends hA samples v (by rw [hl, hvlen]) hvn e E hEpos bins hku hstart (bins - 1) (by omega)
  have hkU := hku t ht1
  set kv := v.filter fun y => decide (t ≤ y) with hkv
  -- the kept pairs
  set kept := (samples.zip w).filter (fun q => decide (t ≤ f q.2)) with hkept
  have hk2 : kept.map (·.2) = w.filter fun y => decide (t ≤ f y) := zip_filter_snd (fun y => decide (t ≤ f y)) samples w hl
  have hkvm : kv = (kept.map (·.2)).map f := by
    rw [hk2, hkv, hv, List.filter_map]
    rfl
  have hkne : kept ≠ [] := by
    intro hc
    rw [hc] at hkvm
    exact hkU.ne_nil hkvm
  obtain ⟨m, hm1, hm2⟩ := exists_min (l := kept.map (·.2)) (by simpa using hkne)
  obtain ⟨q0, hq0, hq0m⟩ := List.mem_map.mp hm1
  have hkept' : kept = (samples.zip w).filter (fun q => decide (m ≤ q.2)) := by
    rw [hkept]
    apply List.filter_congr
    intro q hq
    rw [decide_eq_decide]
    constructor
    · intro hle
      exact hm2 q.2 (List.mem_map.mpr ⟨q, List.mem_filter.mpr ⟨hq, by simpa using hle⟩, rfl⟩)
    · intro hle
      have h1 : t ≤ f q0.2 := by simpa using (List.mem_filter.mp hq0).2
      exact h1.trans (hfm (by rw [hq0m]; exact hle))
  -- the exact weights of the kept pairs
  set kw := kept.map (·.2) with hkw
  have hkwsub : kw.Sublist w := by rw [hk2]; exact List.filter_sublist
  have hkwm : ∀ y ∈ kw, y ∈ w := fun y hy => hkwsub.subset hy
  have hkwlen : (kw.length : ℝ) ≤ n := by rw [hnd]; exact_mod_cast hkwsub.length_le
  have hck : Close (n * 2⁻¹ ^ 50) eta kv (kw.map fun y => y / w.sum) := by
    have hall := normal_close hA hus hsum
    rw [hkvm]
    apply Close.of_map
    intro y hy
    have key : ∀ l : List ℝ, Close (n * 2⁻¹ ^ 50) eta (l.map fun x => A.rnd (x / S)) (l.map fun x => x / w.sum) → ∀ y ∈ l,
        |A.rnd (y / S) - y / w.sum| ≤ n * 2⁻¹ ^ 50 * (y / w.sum) + eta := by
      intro l
      induction l with
      | nil => intro _ y hy; simp at hy
      | cons c l ih =>
        intro hc y hy
        cases hc with
        | cons h1 h2 =>
          rcases List.mem_cons.mp hy with rfl | hy
          · exact h1
          · exact ih h2 y hy
    exact key w hall y (hkwm y hy)
  have hkp01 : ∀ y ∈ (kw.map fun y => y / w.sum), 0 ≤ y ∧ y ≤ 1 := by
    intro y hy
    obtain ⟨z, hz, rfl⟩ := List.mem_map.mp hy
    exact hp01 _ (List.mem_map.mpr ⟨z, hkwm z hz, rfl⟩)
  have hkvsum : 2⁻¹ ^ 41 ≤ kv.sum := by
    obtain ⟨c, hc1, hc2⟩ := ht1
    have hbm : b ∈ kv := List.mem_filter.mpr ⟨hb1, by simpa using hc2.trans (hb2 c hc1)⟩
    exact hbbig.trans (List.single_le_sum (fun y hy => hv0 y (List.mem_filter.mp hy).1) b hbm)
  have hkps : 2⁻¹ ^ 50 ≤ (kw.map fun y => y / w.sum).sum := by
    have h1 := (abs_le.mp hck.sum).2
    rw [List.length_map] at h1
    have hT0 : 0 ≤ (kw.map fun y => y / w.sum).sum := List.sum_nonneg fun y hy => (hkp01 y hy).1
    have h2 : n * 2⁻¹ ^ 50 * (kw.map fun y => y / w.sum).sum ≤ 1 * (kw.map fun y => y / w.sum).sum := by
      apply mul_le_mul_of_nonneg_right _ hT0
      have : n * 2⁻¹ ^ 50 = x / 16 := by rw [hxd]; ring
      linarith
    have h3 : (kw.length : ℝ) * eta ≤ 2⁻¹ ^ 60 := by
      have h4 : eta ≤ 2⁻¹ ^ 100 := by unfold eta; exact pow_le_pow_of_le_one (by norm_num) (by norm_num) (by norm_num)
      calc (kw.length : ℝ) * eta ≤ 2 ^ 40 * 2⁻¹ ^ 100 := mul_le_mul (hkwlen.trans hf) h4 heta.le (by positivity)
        _ = 2⁻¹ ^ 60 := by norm_num
    have h5 : (2⁻¹ : ℝ) ^ 41 - 2⁻¹ ^ 60 ≥ 2 * 2⁻¹ ^ 50 := by norm_num
    linarith
  obtain ⟨hks, hke⟩ := ess_of_close hck hn hf (by rw [List.length_map]; exact hkwlen) hkp01 hkps
  have hesskp : ess (kw.map fun y => y / w.sum) = ess kw := by
    have : (kw.map fun x => x / w.sum) = kw.map ((w.sum)⁻¹ * ·) := by
      apply List.map_congr_left; intro y _; rw [div_eq_inv_mul]
    rw [this, ess_scale _ (inv_ne_zero hus.pos.ne')]
  rw [hesskp, ← hxd] at hke
  have hSk : 0 < A.total kv := (ess_close hA hkU (hA.total _) (hA.total _)).1
  refine ⟨⟨kept.map (·.1), normalizeD A (kv.map fin), v.map fin⟩, ?_, m, kept, hkept', hkne, rfl, ?_, ?_⟩
  · unfold trimWeightsD
    simp only [hnorm, hinv]
    rw [show ((bins : ℤ) - 1) = ((bins - 1 : ℕ) : ℤ) by omega, ht3]
    have hz : ((samples.zip v).filter fun q => decide (t ≤ q.2)).map (·.1) = kept.map (·.1) := by
      rw [hkept, hv]
      exact zip_map_filter f (fun y => decide (t ≤ y)) samples w
    rw [hz]
    rfl
  · refine ⟨kv.map fun y => A.rnd (y / A.total kv), normalizeD_fin hSk.ne', ?_, ?_, ?_⟩
    · intro y hy
      obtain ⟨z, hz, rfl⟩ := List.mem_map.mp hy
      have hz0 := hkU.nonneg z hz
      refine ⟨hA.nonneg (div_nonneg hz0 hSk.le), hA.le_one ?_, hA.idem _⟩
      rw [div_le_one hSk]
      refine (Added.ge_mem hA.mono hA.zero hA.idem (hA.total kv) fun c hc => ⟨hkU.nonneg c hc, ?_⟩).2 z hz
      rw [hkvm] at hc
      obtain ⟨d, -, rfl⟩ := List.mem_map.mp hc
      exact hA.idem _
    · have h1 := (normal_close hA hkU (sum_close hA hkU (hA.total kv))).sum
      rw [hkU.probs.sum, List.length_map, mul_one] at h1
      have h2 : eta ≤ 2⁻¹ ^ 50 := by unfold eta; exact pow_le_pow_of_le_one (by norm_num) (by norm_num) (by norm_num)
      have h3 : (kv.length : ℝ) * eta ≤ kv.length * 2⁻¹ ^ 50 := mul_le_mul_of_nonneg_left h2 (by positivity)
      have h5 : (kv.length : ℝ) * 2⁻¹ ^ 50 + kv.length * 2⁻¹ ^ 50 = kv.length * 2⁻¹ ^ 49 := by ring
      rw [List.length_map]
      linarith
    · have hc := renorm_close hA hkU hck hus.pos hn hf (by rw [hkvm, List.length_map]; exact hkwlen) hkwlen (fun y hy => h.1 y (hkwm y hy)) hkps
      rw [hkw, List.map_map] at hc
      exact List.forall₂_map_right_iff.mp hc
  · -- the effective sample size of the kept weights
    set z := essD A kv / E with hz
    have hkl : kv.length ≤ w.length := by rw [hkvm, List.length_map]; exact hkwsub.length_le
    have h1 := abs_le.mp (hkess kv hkU hkl)
    have hkvpos := ess_pos hkU.isWeights
    have h2 := abs_le.mp hke
    have hkwpos : 0 ≤ ess kw := div_nonneg (sq_nonneg _) (list_sum_sq_nonneg _)
    have h3 := (abs_le.mp (hA.err z)).2
    have hkd : 0 ≤ essD A kv := by
      have : x * ess kv ≤ 1 * ess kv := mul_le_mul_of_nonneg_right (by linarith) hkvpos.le
      linarith [h1.1]
    have hz0 : 0 ≤ z := div_nonneg hkd hEpos.le
    rw [abs_of_nonneg hz0] at h3
    by_cases hez : e - 4 * x ≤ 0
    · exact (mul_nonpos_of_nonpos_of_nonneg hez hessw.le).trans hkwpos
    push Not at hez
    have h4 : e - 2 * uu ≤ z := by
      by_contra hc
      push Not at hc
      have : uu * z ≤ uu * 1 := mul_le_mul_of_nonneg_left (by linarith) hu.le
      linarith
    have h5 : essD A kv = z * E := by rw [hz, div_mul_cancel₀ _ hEpos.ne']
    have h6 : (e - 2 * uu) * ((1 - x) * ess w) ≤ essD A kv := by
      rw [h5]
      exact mul_le_mul h4 (by linarith [hE2.1]) (mul_nonneg (by linarith) hessw.le) hz0
    have h7 : essD A kv ≤ (1 + x) * ((1 + x) * ess kw) := by
      have : (1 + x) * ess kv ≤ (1 + x) * ((1 + x) * ess kw) := mul_le_mul_of_nonneg_left (by linarith) (by linarith)
      linarith
    have h8 := slack hez.le he hx0.le hx1 hu.le hux
    have h9 : (e - 4 * x) * (1 + x) ^ 2 * ess w ≤ (1 + x) ^ 2 * ess kw := by
      calc _ ≤ (e - 2 * uu) * (1 - x) * ess w := mul_le_mul_of_nonneg_right h8 hessw.le
        _ = (e - 2 * uu) * ((1 - x) * ess w) := by ring
        _ ≤ _ := h6
        _ ≤ _ := h7
        _ = _ := by ring
    have h10 : (1 + x) ^ 2 * ((e - 4 * x) * ess w) ≤ (1 + x) ^ 2 * ess kw := by linarith
    exact le_of_mul_le_mul_left h10 (by positivity)

end Poco
