import Verif.Spec.DoubleTools
import Verif.Props.DoubleLogw

/-! # C152: `unique_sample_size`, `compute_ess`, `increment_logz` in double precision -/

namespace Poco
open F Spec

theorem eta_le_unit : eta ≤ uu := by unfold eta uu; exact pow_le_pow_of_le_one (by norm_num) (by norm_num) (by norm_num)

/-- One term of `unique_sample_size`. -/
theorem uss_term {A : ArithPow} (hA : IsDoublePow A) {a b x y : ℝ} (hb1 : b ≤ uu) (hx0 : 0 ≤ x) (hx1 : x ≤ 1) (hy0 : 0 ≤ y) (hy1 : y ≤ 1)
    (h : |x - y| ≤ a * y + b) (k : ℕ) :
    0 ≤ A.rnd (1 - A.pow (A.rnd (1 - x)) k) ∧
    |A.rnd (1 - A.pow (A.rnd (1 - x)) k) - (1 - (1 - y) ^ k)| ≤ k * a * y + (3 * k + 5) * uu := by
  have hd := hA.log.double
  have hu := uu_pos
  have he := eta_le_unit
  set c := A.rnd (1 - x) with hc
  have hc0 : 0 ≤ c := hd.nonneg (by linarith)
  have hc1 : c ≤ 1 := hd.le_one (by linarith)
  have e1 := hd.err (1 - x)
  rw [abs_of_nonneg (by linarith : 0 ≤ 1 - x), ← hc] at e1
  have e1' : |c - (1 - y)| ≤ a * y + 3 * uu := by
    have : uu * (1 - x) ≤ uu := by nlinarith
    calc |c - (1 - y)| = |(c - (1 - x)) - (x - y)| := by ring_nf
      _ ≤ |c - (1 - x)| + |x - y| := abs_sub _ _
      _ ≤ _ := by linarith
  have e2 : |c ^ k - (1 - y) ^ k| ≤ k * (a * y + 3 * uu) := by
    refine (abs_pow_sub_pow_le c (1 - y) k).trans ?_
    have h1 : max |c| |1 - y| ^ (k - 1) ≤ 1 := by
      apply pow_le_one₀ (le_max_of_le_left (abs_nonneg _))
      rw [abs_of_nonneg hc0, abs_of_nonneg (by linarith : 0 ≤ 1 - y)]
      exact max_le hc1 (by linarith)
    have h2 : 0 ≤ |c - (1 - y)| * k := by positivity
    calc _ ≤ |c - (1 - y)| * k * 1 := mul_le_mul_of_nonneg_left h1 h2
      _ ≤ k * (a * y + 3 * uu) := by
        rw [mul_one, mul_comm]
        exact mul_le_mul_of_nonneg_left e1' (by positivity)
  obtain ⟨q0, q1⟩ := hA.pow_range c k hc0 hc1
  have q2 := hA.pow_near c k hc0 hc1
  set q := A.pow c k
  have q3 : |q - c ^ k| ≤ 3 * uu := by
    have h1 : c ^ k ≤ 1 := pow_le_one₀ hc0 hc1
    have h2 : (2⁻¹ : ℝ) ^ 52 = 2 * uu := by unfold uu; norm_num
    have h3 : (2⁻¹ : ℝ) ^ 1074 ≤ uu := by unfold uu; exact pow_le_pow_of_le_one (by norm_num) (by norm_num) (by norm_num)
    have h4 : (2⁻¹ : ℝ) ^ 52 * c ^ k ≤ 2 * uu := by rw [h2]; nlinarith
    exact q2.trans ((add_le_add h4 h3).trans_eq (by ring))
  have e3 := hd.err (1 - q)
  rw [abs_of_nonneg (by linarith : 0 ≤ 1 - q)] at e3
  refine ⟨hd.nonneg (by linarith), ?_⟩
  have : uu * (1 - q) ≤ uu := by nlinarith
  calc |A.rnd (1 - q) - (1 - (1 - y) ^ k)| = |(A.rnd (1 - q) - (1 - q)) - (q - c ^ k) - (c ^ k - (1 - y) ^ k)| := by ring_nf
    _ ≤ |A.rnd (1 - q) - (1 - q)| + |q - c ^ k| + |c ^ k - (1 - y) ^ k| := (abs_sub _ _).trans (by gcongr; exact abs_sub _ _)
    _ ≤ (uu + uu) + 3 * uu + k * (a * y + 3 * uu) := by linarith
    _ = _ := by ring

theorem one_sub_pow_le {y : ℝ} (hy1 : y ≤ 1) (k : ℕ) : 1 - (1 - y) ^ k ≤ k * y := by
  have := one_add_mul_le_pow (a := -y) (by linarith) k
  rw [← sub_eq_add_neg] at this
  linarith

/-- The sum of `unique_sample_size`. -/
theorem uss_close {A : ArithPow} (hA : IsDoublePow A) {a b : ℝ} (ha : 0 ≤ a) (ha1 : a ≤ 1) (hb1 : b ≤ uu) {v p : List ℝ} (hp : Probs p)
    (hv : ∀ x ∈ v, 0 ≤ x ∧ x ≤ 1) (h : Close a b v p) (k : ℕ) :
    |A.total (v.map fun x => A.rnd (1 - A.pow (A.rnd (1 - x)) k)) - (p.map fun y => 1 - (1 - y) ^ k).sum| ≤
      k * a + p.length * (k + 1) * 2⁻¹ ^ 49 := by
  have hd := hA.log.double
  have hu := uu_pos
  have he := eta_le_unit
  have hn := hp.one_le
  have hf := hp.few'
  have hlen : v.length = p.length := h.length_eq
  set t := v.map fun x => A.rnd (1 - A.pow (A.rnd (1 - x)) k) with ht
  have hnu : (p.length : ℝ) * uu ≤ 1 / 100 := by
    have : (p.length : ℝ) * uu ≤ 2 ^ 40 * uu := mul_le_mul_of_nonneg_right hf hu.le
    have h2 : (2 : ℝ) ^ 40 * uu ≤ 1 / 100 := by unfold uu; norm_num
    linarith
  have key : ∀ {v p : List ℝ}, (∀ x ∈ v, 0 ≤ x ∧ x ≤ 1) → (∀ y ∈ p, 0 ≤ y ∧ y ≤ 1) → Close a b v p →
      |(v.map fun x => A.rnd (1 - A.pow (A.rnd (1 - x)) k)).sum - (p.map fun y => 1 - (1 - y) ^ k).sum| ≤
        k * a * p.sum + p.length * ((3 * k + 5) * uu) := by
    intro v p hv hp hc
    induction hc with
    | nil => simp
    | @cons x y v p hxy _ ih =>
      have i1 := ih (fun x hx => hv x (by simp [hx])) (fun x hx => hp x (by simp [hx]))
      have i2 := (uss_term hA hb1 (hv x (by simp)).1 (hv x (by simp)).2 (hp y (by simp)).1 (hp y (by simp)).2 hxy k).2
      simp only [List.map_cons, List.sum_cons, List.length_cons, Nat.cast_add, Nat.cast_one]
      calc _ = |(A.rnd (1 - A.pow (A.rnd (1 - x)) k) - (1 - (1 - y) ^ k)) +
            ((v.map fun x => A.rnd (1 - A.pow (A.rnd (1 - x)) k)).sum - (p.map fun y => 1 - (1 - y) ^ k).sum)| := by ring_nf
        _ ≤ _ := abs_add_le _ _
        _ ≤ _ := by linarith
  have hp01 : ∀ y ∈ p, 0 ≤ y ∧ y ≤ 1 := fun y hy => ⟨hp.nonneg y hy, hp.le_one hy⟩
  have k1 := key hv hp01 h
  rw [hp.sum, mul_one, ← ht] at k1
  have k2 : (p.map fun y => 1 - (1 - y) ^ k).sum ≤ (k : ℝ) := by
    have : (p.map fun y => 1 - (1 - y) ^ k).sum ≤ (p.map fun y => (k : ℝ) * y).sum :=
      List.sum_le_sum fun y hy => one_sub_pow_le (hp01 y hy).2 k
    rwa [list_sum_map_mul, hp.sum, mul_one] at this
  have ht0 : ∀ x ∈ t, 0 ≤ x := by
    intro x hx
    obtain ⟨z, hz, rfl⟩ := List.mem_map.mp hx
    have hz' := hv z hz
    obtain ⟨q0, q1⟩ := hA.pow_range (A.rnd (1 - z)) k (hd.nonneg (by linarith)) (hd.le_one (by linarith))
    exact hd.nonneg (by linarith)
  have htne : t ≠ [] := by
    have : t.length = p.length := by rw [ht, List.length_map, hlen]
    intro hc
    rw [hc] at this
    exact hp.ne_nil (List.length_eq_zero_iff.mp this.symm)
  have htl : (t.length : ℝ) = p.length := by rw [ht, List.length_map, hlen]
  have k3 := (hd.total t).err hd.mono hd.zero hd.err htne ht0 (by rw [htl]; linarith)
  rw [htl] at k3
  have hk0 : (0 : ℝ) ≤ k := Nat.cast_nonneg k
  have k4 : t.sum ≤ 3 * k + 1 := by
    have h1 := (abs_le.mp k1).2
    have h2 : (k : ℝ) * a ≤ k := by nlinarith
    have h3 : (p.length : ℝ) * ((3 * k + 5) * uu) ≤ (3 * k + 5) * (1 / 100) := by
      calc (p.length : ℝ) * ((3 * k + 5) * uu) = (3 * k + 5) * (p.length * uu) := by ring
        _ ≤ _ := mul_le_mul_of_nonneg_left hnu (by positivity)
    linarith
  have ht00 := List.sum_nonneg ht0
  have k5 : ((p.length : ℝ) - 1) * (2 * uu * t.sum + 2 * eta) ≤ p.length * ((6 * k + 4) * uu) := by
    have h1 : 2 * uu * t.sum + 2 * eta ≤ (6 * k + 4) * uu := by
      have := mul_le_mul_of_nonneg_left k4 (by positivity : 0 ≤ 2 * uu)
      linarith
    have h0 : 0 ≤ 2 * uu * t.sum + 2 * eta := by have := eta_pos; positivity
    calc _ ≤ (p.length : ℝ) * (2 * uu * t.sum + 2 * eta) := mul_le_mul_of_nonneg_right (by linarith) h0
      _ ≤ _ := mul_le_mul_of_nonneg_left h1 (by positivity)
  have h16 : (2⁻¹ : ℝ) ^ 49 = 16 * uu := by unfold uu; norm_num
  rw [h16]
  calc _ = |(A.total t - t.sum) + (t.sum - (p.map fun y => 1 - (1 - y) ^ k).sum)| := by ring_nf
    _ ≤ |A.total t - t.sum| + |t.sum - (p.map fun y => 1 - (1 - y) ^ k).sum| := abs_add_le _ _
    _ ≤ p.length * ((6 * k + 4) * uu) + (k * a + p.length * ((3 * k + 5) * uu)) := by linarith
    _ = k * a + p.length * (9 * k + 9) * uu := by ring
    _ ≤ _ := by
      have : (p.length : ℝ) * (9 * k + 9) * uu ≤ p.length * (k + 1) * (16 * uu) := by
        have h0 : (0 : ℝ) ≤ p.length * (k + 1) * uu := by positivity
        linarith
      linarith

theorem uniqueSampleSizeD_fin {A : ArithPow} {w v : List ℝ} (h : normalizeD A.toArith (w.map fin) = v.map fin) (k : Option ℕ) :
    uniqueSampleSizeD A (w.map fin) k =
      (v.map fin, fin (A.total (v.map fun x => A.rnd (1 - A.pow (A.rnd (1 - x)) (k.getD w.length))))) := by
  unfold uniqueSampleSizeD
  dsimp only
  rw [h, List.length_map, ← sumD_fin, List.map_map, List.map_map]
  rfl

/-- C152: the unique sample size the sampler computes from log-weights (no NaN, no `+inf`, not all `-inf`), in double precision and
whatever the order of additions, is the expected number of distinct draws up to an absolute error of `(k + 1) (n 2⁻⁴⁸ + 2⁻³⁶)`. -/
theorem C152_uss {A : ArithPow} (hA : IsDoublePow A) (logw : List F) (h : UsableLog logw) (k : Option ℕ) :
    ∃ (w v : List ℝ) (u : ℝ), rawWeightsD A.toArith logw = .ok (w.map fin) ∧ uniqueSampleSizeD A (w.map fin) k = (v.map fin, fin u) ∧
      |u - distinct (logw.map weightOf) (k.getD logw.length)| ≤
        ((k.getD logw.length : ℕ) + 1) * (logw.length * 2⁻¹ ^ 48 + 2⁻¹ ^ 36) := by
  obtain ⟨w, v, e, h1, -, -, h4, h5, -, h7, -⟩ := C122_weights hA.log.double logw h
  have hlw : w.length = logw.length := by
    obtain ⟨m, hm, -⟩ := h.max
    rw [rawWeightsD_eq h hm] at h1
    simp only [Except.ok.injEq] at h1
    simpa using (congrArg List.length h1).symm
  have hnd : normalizeD A.toArith (w.map fin) = v.map fin := by
    have := congrArg Prod.fst h4
    exact this
  refine ⟨w, v, _, h1, uniqueSampleSizeD_fin hnd k, ?_⟩
  rw [hlw]
  set K := k.getD logw.length
  set W := (logw.map weightOf).sum with hW
  have hpos : 0 < W := by
    obtain ⟨l0, hl0⟩ := h.some_fin
    have h0 : ∀ x ∈ logw.map weightOf, 0 ≤ x := by
      intro x hx
      obtain ⟨a, -, rfl⟩ := List.mem_map.mp hx
      cases a <;> simp [weightOf, (Real.exp_pos _).le]
    exact lt_of_lt_of_le (Real.exp_pos l0) (List.single_le_sum h0 _ (List.mem_map.mpr ⟨fin l0, hl0, rfl⟩))
  have hp : Probs (logw.map fun a => weightOf a / W) := by
    refine ⟨?_, ?_, by rw [List.length_map]; exact h.few⟩
    · intro x hx
      obtain ⟨a, -, rfl⟩ := List.mem_map.mp hx
      refine div_nonneg ?_ hpos.le
      cases a <;> simp [weightOf, (Real.exp_pos _).le]
    · have := sum_normalized (w := logw.map weightOf) hpos.ne'
      simpa [Function.comp_def] using this
  have hf : (logw.length : ℝ) ≤ 2 ^ 40 := by exact_mod_cast h.few
  have hc : Close (logw.length * 2⁻¹ ^ 49 + 2⁻¹ ^ 36) (2⁻¹ ^ 900) v (logw.map fun a => weightOf a / W) :=
    List.forall₂_map_right_iff.mpr h7
  have key := uss_close hA (by positivity) (by
      have : (logw.length : ℝ) * 2⁻¹ ^ 49 ≤ 2 ^ 40 * 2⁻¹ ^ 49 := mul_le_mul_of_nonneg_right hf (by positivity)
      norm_num at this ⊢
      linarith) (by unfold uu; exact pow_le_pow_of_le_one (by norm_num) (by norm_num) (by norm_num)) hp h5 hc K
  rw [List.map_map, List.length_map] at key
  have hdis : distinct (logw.map weightOf) K = (logw.map ((fun y => 1 - (1 - y) ^ K) ∘ fun a => weightOf a / W)).sum := by
    unfold distinct
    rw [List.map_map]
    rfl
  rw [hdis]
  refine key.trans ?_
  have e1 : (2⁻¹ : ℝ) ^ 48 = 2 * 2⁻¹ ^ 49 := by norm_num
  rw [e1]
  have e2 : (0 : ℝ) ≤ logw.length * 2⁻¹ ^ 49 := by positivity
  have e3 : (0 : ℝ) ≤ 2⁻¹ ^ 36 := by positivity
  generalize (2⁻¹ : ℝ) ^ 36 = z at *
  generalize (2⁻¹ : ℝ) ^ 49 = y at *
  linarith

/-- C152: `compute_ess` in double precision is the effective sample size divided by the number of particles, up to the relative error
`n·2⁻⁴⁴ + 2⁻³⁴`. -/
theorem C152_compute_ess {A : Arith} (hA : IsDouble A) (logw : List F) (h : UsableLog logw) :
    ∃ r : ℝ, computeEssD A logw = .ok (fin r) ∧
      |r - ess (logw.map weightOf) / logw.length| ≤ (logw.length * 2⁻¹ ^ 44 + 2⁻¹ ^ 34) * (ess (logw.map weightOf) / logw.length) := by
  obtain ⟨w, v, e, h1, -, -, h4, -, -, -, h8⟩ := C122_weights hA logw h
  obtain ⟨m, hm, hmem, -⟩ := h.max
  have hlw : w.length = logw.length := by
    have h1' := h1
    rw [rawWeightsD_eq h hm] at h1'
    simp only [Except.ok.injEq] at h1'
    simpa using (congrArg List.length h1').symm
  have hn : (1 : ℝ) ≤ logw.length := by
    have : 0 < logw.length := List.length_pos_of_mem hmem
    exact_mod_cast this
  have hraw : (logw.map fun l => A.round (l - fin m)).map A.expF = w.map fin := by
    unfold rawWeightsD at h1
    rw [hm] at h1
    simp only [bind, Except.bind, pure, Except.pure, Except.ok.injEq] at h1
    rw [List.map_map]
    exact h1
  have hnd : normalizeD A (w.map fin) = v.map fin := by
    have := congrArg Prod.fst h4
    exact this
  have hinv : invSumSqD A (v.map fin) = fin e := by
    have := congrArg Prod.snd h4
    have h' : invSumSqD A (normalizeD A (w.map fin)) = fin e := this
    rwa [hnd] at h'
  refine ⟨A.rnd (e / logw.length), ?_, ?_⟩
  · unfold computeEssD
    rw [hm]
    simp only [bind, Except.bind, pure, Except.pure]
    have e1 : ((logw.map fun l => A.round (l - fin m)).map fun x => A.round (A.expF x / A.sum ((logw.map fun l => A.round (l - fin m)).map A.expF)))
        = v.map fin := by
      rw [hraw, ← hnd]
      unfold normalizeD
      dsimp only
      conv_rhs => rw [← hraw, List.map_map]
      rw [hraw]
      rfl
    rw [e1]
    have e2 : A.round (fin 1 / A.sum ((v.map fin).map fun w => A.round (w * w))) = fin e := by
      rw [← hinv]
      unfold invSumSqD
      rfl
    rw [e2]
    have hvl : v.length = logw.length := by
      have := congrArg List.length hnd
      simpa [normalizeD, hlw] using this.symm
    rw [List.length_map, hvl]
    unfold F.ofNat
    rw [fin_div _ _ (by linarith)]
    rfl
  · have hu := uu_pos
    set E := ess (logw.map weightOf)
    have hf : (logw.length : ℝ) ≤ 2 ^ 40 := by exact_mod_cast h.few
    set n : ℝ := (logw.length : ℝ)
    have hE1 : 1 ≤ E := by
      apply one_le_ess
      refine ⟨?_, ?_⟩
      · intro x hx
        obtain ⟨a, -, rfl⟩ := List.mem_map.mp hx
        cases a <;> simp [weightOf, (Real.exp_pos _).le]
      · have h0 : ∀ x ∈ logw.map weightOf, 0 ≤ x := by
          intro x hx
          obtain ⟨a, -, rfl⟩ := List.mem_map.mp hx
          cases a <;> simp [weightOf, (Real.exp_pos _).le]
        exact lt_of_lt_of_le (Real.exp_pos m) (List.single_le_sum h0 _ (List.mem_map.mpr ⟨fin m, hmem, rfl⟩))
    have hn0 : 0 < n := by linarith
    set D := n * (2⁻¹ : ℝ) ^ 45 + 2⁻¹ ^ 35 with hD
    have hD0 : 0 ≤ D := by positivity
    have hD1 : D ≤ 1 := by
      have : n * (2⁻¹ : ℝ) ^ 45 ≤ 2 ^ 40 * 2⁻¹ ^ 45 := mul_le_mul_of_nonneg_right hf (by positivity)
      have h2 : (2 : ℝ) ^ 40 * 2⁻¹ ^ 45 + 2⁻¹ ^ 35 ≤ 1 := by norm_num
      linarith
    have hq : |e / n - E / n| ≤ D * (E / n) := by
      rw [← sub_div, abs_div, abs_of_pos hn0, mul_div_assoc']
      exact div_le_div_of_nonneg_right h8 hn0.le
    have hr := hA.err (e / n)
    have hEn : 2⁻¹ ^ 40 ≤ E / n := by
      rw [le_div_iff₀ hn0]
      calc (2⁻¹ : ℝ) ^ 40 * n ≤ 2⁻¹ ^ 40 * 2 ^ 40 := mul_le_mul_of_nonneg_left hf (by positivity)
        _ = 1 := by norm_num
        _ ≤ E := hE1
    have hEn0 : 0 < E / n := lt_of_lt_of_le (by positivity) hEn
    have heta : eta ≤ uu * (E / n) := by
      have h1 := eta_le_uu (x := E / n) (le_trans (pow_le_pow_of_le_one (by norm_num) (by norm_num) (by norm_num)) hEn)
      refine h1.trans ?_
      have : uu * (2⁻¹ : ℝ) ^ 500 ≤ uu * 1 := mul_le_mul_of_nonneg_left (pow_le_one₀ (by norm_num) (by norm_num)) hu.le
      rw [mul_one] at this
      exact mul_le_mul_of_nonneg_right this hEn0.le
    have hab : |e / n| ≤ 2 * (E / n) := by
      calc |e / n| = |(e / n - E / n) + E / n| := by ring_nf
        _ ≤ |e / n - E / n| + |E / n| := abs_add_le _ _
        _ ≤ D * (E / n) + E / n := by rw [abs_of_pos hEn0]; linarith
        _ ≤ _ := by nlinarith
    have h3 : |A.rnd (e / n) - E / n| ≤ (D + 3 * uu) * (E / n) := by
      calc |A.rnd (e / n) - E / n| = |(A.rnd (e / n) - e / n) + (e / n - E / n)| := by ring_nf
        _ ≤ |A.rnd (e / n) - e / n| + |e / n - E / n| := abs_add_le _ _
        _ ≤ (uu * (2 * (E / n)) + uu * (E / n)) + D * (E / n) := by
          have := mul_le_mul_of_nonneg_left hab hu.le
          linarith
        _ = _ := by ring
    refine h3.trans (mul_le_mul_of_nonneg_right ?_ hEn0.le)
    have h5 : 3 * uu ≤ 2⁻¹ ^ 35 := by unfold uu; norm_num
    have h6 : (2⁻¹ : ℝ) ^ 34 = 2 * 2⁻¹ ^ 35 := by norm_num
    have h7 : (2⁻¹ : ℝ) ^ 44 = 2 * 2⁻¹ ^ 45 := by norm_num
    have h8 : (0 : ℝ) ≤ n * 2⁻¹ ^ 45 := by positivity
    rw [h6, h7, hD]
    generalize (2⁻¹ : ℝ) ^ 45 = y at *
    generalize (2⁻¹ : ℝ) ^ 35 = z at *
    linarith

theorem foldl_maximum_fin (l : List ℝ) (a : ℝ) : ∃ m, (l.map fin).foldl maximum (fin a) = fin m ∧ m ∈ a :: l ∧ ∀ x ∈ a :: l, x ≤ m := by
  induction l generalizing a with
  | nil => exact ⟨a, rfl, by simp, by simp⟩
  | cons b l ih =>
    have hm : maximum (fin a) (fin b) = fin (max a b) := by
      unfold maximum
      simp only [isnan]
      split_ifs <;> simp_all [le_of_lt]
    obtain ⟨m, h1, h2, h3⟩ := ih (max a b)
    refine ⟨m, by rw [List.map_cons, List.foldl_cons, hm, h1], ?_, ?_⟩
    · rcases List.mem_cons.mp h2 with h | h
      · rcases max_choice a b with h' | h' <;> rw [h, h'] <;> simp
      · simp [h]
    · have h4 := h3 (max a b) (by simp)
      intro x hx
      rcases List.mem_cons.mp hx with rfl | hx
      · exact (le_max_left _ _).trans h4
      · rcases List.mem_cons.mp hx with rfl | hx
        · exact (le_max_right _ _).trans h4
        · exact h3 x (by simp [hx])

theorem lseR_sub (l : List ℝ) (hne : l ≠ []) (m : ℝ) : lseR (l.map (· - m)) = lseR l - m := by
  unfold lseR
  have : (l.map (· - m)).map Real.exp = (l.map Real.exp).map (Real.exp (-m) * ·) := by
    rw [List.map_map, List.map_map]
    apply List.map_congr_left
    intro x _
    simp only [Function.comp]
    rw [← Real.exp_add]
    ring_nf
  rw [this, list_sum_map_mul, Real.log_mul (Real.exp_pos _).ne' (sum_exp_pos hne).ne', Real.log_exp]
  ring

/-- C152: `increment_logz` in double precision, from at most `2^40` log-weights of absolute value at most `M`, is the logarithm of the
total weight up to an absolute error of `n·2⁻⁴⁷·(M + 16)`. -/
theorem C152_increment {A : ArithLog} (hA : IsDoubleLog A) (l : List ℝ) (hne : l ≠ []) (hf : l.length ≤ 2 ^ 40) (M : ℝ)
    (hM : ∀ x ∈ l, |x| ≤ M) :
    ∃ r : ℝ, incrementLogzD A (l.map fin) = .ok (fin r) ∧
      |r - Real.log (l.map Real.exp).sum| ≤ l.length * 2⁻¹ ^ 47 * (M + 16) := by
  have hd := hA.double
  have hu := uu_pos
  have he := eta_le_unit
  obtain ⟨a, l', rfl⟩ := List.exists_cons_of_ne_nil hne
  obtain ⟨m, hm, hmm, hmx⟩ := foldl_maximum_fin l' a
  have hmax : F.max ((a :: l').map fin) = .ok (fin m) := by
    simp only [List.map_cons, F.max]
    rw [hm]
  set l := a :: l' with hl
  have hn : (1 : ℝ) ≤ l.length := by simp [hl]
  have hf' : (l.length : ℝ) ≤ 2 ^ 40 := by exact_mod_cast hf
  have hM0 : 0 ≤ M := (abs_nonneg _).trans (hM m hmm)
  set n : ℝ := (l.length : ℝ) with hnd
  set N := l.map fun x => A.rnd (x - m) with hN
  have hNl : N.length = l.length := by rw [hN, List.length_map]
  have hNne : N ≠ [] := by simp [hN, hl]
  have hus : uu ≤ 1 / 1000 := by unfold uu; norm_num
  have hdiff : ∀ x ∈ l, |A.rnd (x - m) - (x - m)| ≤ uu * (2 * M) + eta := by
    intro x hx
    refine (hd.err _).trans ?_
    have : |x - m| ≤ 2 * M := (abs_sub _ _).trans (by linarith [hM x hx, hM m hmm])
    have := mul_le_mul_of_nonneg_left this hu.le
    linarith
  have hN0 : ∀ x ∈ N, |x| ≤ 3 * M + 1 := by
    intro x hx
    obtain ⟨y, hy, rfl⟩ := List.mem_map.mp hx
    have h1 := hdiff y hy
    have h2 : |y - m| ≤ 2 * M := (abs_sub _ _).trans (by linarith [hM y hy, hM m hmm])
    have h3 : uu * (2 * M) ≤ 1 / 1000 * (2 * M) := mul_le_mul_of_nonneg_right hus (by positivity)
    calc |A.rnd (y - m)| = |(A.rnd (y - m) - (y - m)) + (y - m)| := by ring_nf
      _ ≤ _ := abs_add_le _ _
      _ ≤ _ := by linarith
  have hlog : Real.log n ≤ 28 := by
    have h1 : Real.log n ≤ Real.log (2 ^ 40) := Real.log_le_log (by linarith) hf'
    rw [Real.log_pow] at h1
    have := Real.log_two_lt_d9
    norm_num at h1
    linarith
  have hlog0 : 0 ≤ Real.log n := Real.log_nonneg hn
  set K := 6 * M + 74 with hK
  have hnu : n * (4 * uu * K) ≤ K / 100 := by
    have h1 : n * uu ≤ 2 ^ 40 * uu := mul_le_mul_of_nonneg_right hf' hu.le
    have h2 : (2 : ℝ) ^ 40 * uu ≤ 1 / 400 := by unfold uu; norm_num
    have h3 : n * uu * (4 * K) ≤ 1 / 400 * (4 * K) := mul_le_mul_of_nonneg_right (h1.trans h2) (by positivity)
    linarith
  obtain ⟨r, hr1, hr2⟩ := lseD_close hA (K₀ := 3 * M + 1) (K := K) (by linarith) N hNne hN0 (by
    rw [hNl, ← hnd]
    linarith)
  rw [hNl, ← hnd] at hr2
  have hsh : |lseR N - (lseR l - m)| ≤ uu * (2 * M) + eta := by
    rw [← lseR_sub l hne]
    apply lseR_shift _ hNne
    rw [hN]
    clear_value l
    rw [List.forall₂_map_left_iff, List.forall₂_map_right_iff, List.forall₂_same]
    exact hdiff
  have hfin : |m + r - lseR l| ≤ n * (4 * uu * K) + (uu * (2 * M) + eta) := by
    calc |m + r - lseR l| = |(r - lseR N) + (lseR N - (lseR l - m))| := by ring_nf
      _ ≤ _ := abs_add_le _ _
      _ ≤ _ := by linarith
  have hlab : |lseR l| ≤ M + 28 := (lseR_abs hne hM).trans (by rw [← hnd]; linarith)
  have hmr : |m + r| ≤ 2 * M + 30 := by
    have h3 : uu * (2 * M) ≤ 1 / 1000 * (2 * M) := mul_le_mul_of_nonneg_right hus (by positivity)
    calc |m + r| = |(m + r - lseR l) + lseR l| := by ring_nf
      _ ≤ _ := abs_add_le _ _
      _ ≤ _ := by linarith
  have hrnd := hd.err (m + r)
  refine ⟨A.rnd (m + r), ?_, ?_⟩
  · unfold incrementLogzD
    rw [hmax]
    simp only [bind, Except.bind, pure, Except.pure]
    have : ((l.map fin).map fun x => A.round (x - fin m)) = N.map fin := by
      rw [hN, List.map_map, List.map_map]
      apply List.map_congr_left
      intro x _
      simp [Function.comp, Arith.round]
    rw [this, hr1]
    simp [Arith.round]
  · change |A.rnd (m + r) - lseR l| ≤ _
    have h64 : (2⁻¹ : ℝ) ^ 47 = 64 * uu := by unfold uu; norm_num
    rw [h64]
    have h5 : uu * |m + r| ≤ uu * (2 * M + 30) := mul_le_mul_of_nonneg_left hmr hu.le
    calc |A.rnd (m + r) - lseR l| = |(A.rnd (m + r) - (m + r)) + (m + r - lseR l)| := by ring_nf
      _ ≤ |A.rnd (m + r) - (m + r)| + |m + r - lseR l| := abs_add_le _ _
      _ ≤ (uu * (2 * M + 30) + uu) + (n * (4 * uu * K) + (uu * (2 * M) + uu)) := by linarith
      _ = uu * (4 * M + 32) * 1 + n * uu * (24 * M + 296) := by rw [hK]; ring
      _ ≤ uu * (4 * M + 32) * n + n * uu * (24 * M + 296) := by
        have := mul_le_mul_of_nonneg_left hn (by positivity : 0 ≤ uu * (4 * M + 32))
        linarith
      _ = n * uu * (28 * M + 328) := by ring
      _ ≤ n * uu * (64 * (M + 16)) := mul_le_mul_of_nonneg_left (by linarith) (by positivity)
      _ = _ := by ring

/-- The machine of C122-C125 with correctly rounded powers. -/
noncomputable def demoPow : ArithPow where
  toArithLog := demoLog
  pow x k := round53 (x ^ k)

theorem demo_doublePow : IsDoublePow demoPow where
  log := demo_doubleLog
  pow_range x k h0 h1 := by
    refine ⟨round53_nonneg (pow_nonneg h0 k), ?_⟩
    have h1' : round53 1 = 1 := by exact_mod_cast round53_nat 1 (by norm_num)
    show round53 (x ^ k) ≤ 1
    rw [← h1']
    exact round53_mono (pow_le_one₀ h0 h1)
  pow_near x k h0 h1 := by
    have h := round53_near (x ^ k)
    have h2 := pow_nonneg h0 k
    rw [abs_of_nonneg h2] at h
    have h3 : (2⁻¹ : ℝ) ^ 53 * x ^ k ≤ 2⁻¹ ^ 52 * x ^ k := mul_le_mul_of_nonneg_right (by norm_num) h2
    have h4 : (0 : ℝ) ≤ 2⁻¹ ^ 1074 := by positivity
    exact h.trans (h3.trans (le_add_of_nonneg_right h4))

/-- Three log-weights, one of them `-inf`: the expected number of distinct draws among 3, the fraction of effective samples, and the
logarithm of the total weight of the two finite ones. -/
example : (∃ (w v : List ℝ) (u : ℝ), rawWeightsD demoArith [fin 0, fin (-1), ninf] = .ok (w.map fin) ∧
      uniqueSampleSizeD demoPow (w.map fin) none = (v.map fin, fin u) ∧
      |u - distinct [Real.exp 0, Real.exp (-1), 0] 3| ≤ 1 / 10 ^ 10) ∧
    (∃ r, computeEssD demoArith [fin 0, fin (-1), ninf] = .ok (fin r) ∧
      |r - ess [Real.exp 0, Real.exp (-1), 0] / 3| ≤ 1 / 10 ^ 10 * (ess [Real.exp 0, Real.exp (-1), 0] / 3)) ∧
    ∃ r, incrementLogzD demoLog ([0, -1].map fin) = .ok (fin r) ∧ |r - Real.log (Real.exp 0 + Real.exp (-1))| ≤ 1 / 10 ^ 10 := by
  have hul : UsableLog [fin 0, fin (-1), ninf] := ⟨by simp, by simp, ⟨0, by simp⟩, by norm_num⟩
  obtain ⟨w, v, u, h1, h2, h3⟩ := C152_uss demo_doublePow _ hul none
  obtain ⟨r, h4, h5⟩ := C152_compute_ess demo_double _ hul
  obtain ⟨r', h6, h7⟩ := C152_increment demo_doubleLog [0, -1] (by simp) (by norm_num) 1 (by simp)
  refine ⟨⟨w, v, u, h1, h2, ?_⟩, ⟨r, h4, ?_⟩, r', h6, ?_⟩
  · simp only [List.map_cons, List.map_nil, weightOf, Option.getD_none, List.length_cons, List.length_nil] at h3
    refine h3.trans ?_
    norm_num
  · simp only [List.map_cons, List.map_nil, weightOf, List.length_cons, List.length_nil] at h5
    norm_num at h5 ⊢
    refine h5.trans (mul_le_mul_of_nonneg_right (by norm_num) ?_)
    refine div_nonneg (div_nonneg (sq_nonneg _) ?_) (by norm_num)
    exact list_sum_sq_nonneg _
  · simp only [List.map_cons, List.map_nil, List.sum_cons, List.sum_nil, add_zero, List.length_cons, List.length_nil] at h7
    refine h7.trans ?_
    norm_num

end Poco
