import Verif.Props.Total

/-! Effective sizes of a history whose log-likelihoods all lie in one interval. -/

namespace Poco
open F Spec

/-- All stored log-likelihoods lie in `[lo, hi]`, all stored temperatures in `[0, 1]`. -/
def Confined (lo hi : ℝ) (H : List Stage) : Prop := ∀ st ∈ H, (0 ≤ st.beta ∧ st.beta ≤ 1) ∧ ∀ l ∈ st.logl, lo ≤ l ∧ l ≤ hi

theorem tilt_le {lo hi l l' β γ : ℝ} (hl : lo ≤ l ∧ l ≤ hi) (hl' : lo ≤ l' ∧ l' ≤ hi) (hβ : 0 ≤ β ∧ β ≤ 1) (hγ : 0 ≤ γ ∧ γ ≤ 1) :
    Real.exp (l * β) * Real.exp (l' * γ) ≤ Real.exp (hi - lo) * (Real.exp (l' * β) * Real.exp (l * γ)) := by
  rw [← Real.exp_add, ← Real.exp_add, ← Real.exp_add, Real.exp_le_exp]
  have h1 : (l - l') * (β - γ) ≤ hi - lo := by
    have a1 : |l - l'| ≤ hi - lo := by rw [abs_le]; constructor <;> linarith
    have a2 : |β - γ| ≤ 1 := by rw [abs_le]; constructor <;> linarith
    calc (l - l') * (β - γ) ≤ |(l - l') * (β - γ)| := le_abs_self _
      _ = |l - l'| * |β - γ| := abs_mul _ _
      _ ≤ (hi - lo) * 1 := mul_le_mul a1 a2 (abs_nonneg _) (by linarith [abs_nonneg (l - l')])
      _ = hi - lo := mul_one _
  nlinarith

theorem mixture_pos' {H : List Stage} (hne : H ≠ []) (l : ℝ) : 0 < mixture H l := by
  unfold mixture
  have hlen : (0 : ℝ) < H.length := by exact_mod_cast List.length_pos_iff.mpr hne
  refine div_pos ?_ hlen
  apply List.sum_pos
  · intro x hx
    obtain ⟨s, -, rfl⟩ := List.mem_map.mp hx
    positivity
  · simpa using hne

/-- No weight exceeds another by more than the likelihood ratio of the extremes. -/
theorem weight_ratio {lo hi : ℝ} {H : List Stage} (hne : H ≠ []) (hc : Confined lo hi H) {β l l' : ℝ} (hβ : 0 ≤ β ∧ β ≤ 1)
    (hl : lo ≤ l ∧ l ≤ hi) (hl' : lo ≤ l' ∧ l' ≤ hi) : weight H β l ≤ Real.exp (hi - lo) * weight H β l' := by
  have hmix : Real.exp (l * β) * mixture H l' ≤ Real.exp (hi - lo) * (Real.exp (l' * β) * mixture H l) := by
    unfold mixture
    have hlen : (0 : ℝ) < H.length := by exact_mod_cast List.length_pos_iff.mpr hne
    have key : Real.exp (l * β) * (H.map fun s => Real.exp (l' * s.beta) / Real.exp s.logz).sum ≤
        Real.exp (hi - lo) * (Real.exp (l' * β) * (H.map fun s => Real.exp (l * s.beta) / Real.exp s.logz).sum) := by
      rw [← List.sum_map_mul_left, ← List.sum_map_mul_left, ← List.sum_map_mul_left]
      apply List.sum_le_sum
      intro s hs
      have hz : 0 < Real.exp s.logz := Real.exp_pos _
      have := tilt_le hl hl' hβ (hc s hs).1
      rw [← mul_div_assoc, ← mul_div_assoc, ← mul_div_assoc]
      exact div_le_div_of_nonneg_right this hz.le
    rw [← mul_div_assoc, ← mul_div_assoc, ← mul_div_assoc]
    exact div_le_div_of_nonneg_right key hlen.le
  unfold weight
  rw [← mul_div_assoc, div_le_div_iff₀ (mixture_pos' hne l) (mixture_pos' hne l')]
  calc _ ≤ _ := hmix
    _ = _ := by ring

theorem weights_ratio {lo hi : ℝ} {H : List Stage} (hne : H ≠ []) (hc : Confined lo hi H) {β : ℝ} (hβ : 0 ≤ β ∧ β ≤ 1) :
    ∀ x ∈ weights H β, ∀ y ∈ weights H β, x ≤ Real.exp (hi - lo) * y := by
  intro x hx y hy
  obtain ⟨l, h1, rfl⟩ := List.mem_map.mp hx
  obtain ⟨l', h2, rfl⟩ := List.mem_map.mp hy
  obtain ⟨st, s1, s2⟩ := List.mem_flatMap.mp h1
  obtain ⟨st', s1', s2'⟩ := List.mem_flatMap.mp h2
  exact weight_ratio hne hc hβ ((hc st s1).2 l s2) ((hc st' s1').2 l' s2')

theorem map_mul_sum (c : ℝ) (w : List ℝ) : (w.map fun x => c * x).sum = c * w.sum := by
  induction w with
  | nil => simp
  | cons a w ih => simp only [List.map_cons, List.sum_cons, ih]; ring

theorem map_two_sum (a b : ℝ) (w : List ℝ) : (w.map fun x => a * x - b * x ^ 2).sum = a * w.sum - b * (w.map (· ^ 2)).sum := by
  induction w with
  | nil => simp
  | cons x w ih => simp only [List.map_cons, List.sum_cons, ih]; ring

theorem exists_pos_weight {w : List ℝ} (hw : IsWeights w) : ∃ x ∈ w, 0 < x := by
  by_contra hcon
  push Not at hcon
  have : (w.map fun x => -x).sum ≥ 0 := List.sum_nonneg (by
    intro y hy
    obtain ⟨x, hx, rfl⟩ := List.mem_map.mp hy
    linarith [hcon x hx])
  have h2 := map_mul_sum (-1) w
  simp only [neg_mul, one_mul] at h2
  linarith [hw.2]

section
variable {w : List ℝ} {R : ℝ}

theorem each_le (hR : ∀ x ∈ w, ∀ y ∈ w, x ≤ R * y) {x : ℝ} (hx : x ∈ w) : w.length * x ≤ R * w.sum := by
  have := List.sum_le_sum (l := w) (f := fun _ => x) (g := fun y => R * y) (fun y hy => hR x hx y hy)
  rw [map_mul_sum] at this
  simpa using this

theorem each_ge (hR : ∀ x ∈ w, ∀ y ∈ w, x ≤ R * y) {y : ℝ} (hy : y ∈ w) : w.sum ≤ R * (w.length * y) := by
  have := List.sum_le_sum (l := w) (f := fun x => x) (g := fun _ => R * y) (fun x hx => hR x hx y hy)
  simp at this
  linarith

theorem sumSq_le (hw : IsWeights w) (hR : ∀ x ∈ w, ∀ y ∈ w, x ≤ R * y) : w.length * (w.map (· ^ 2)).sum ≤ R * w.sum ^ 2 := by
  rw [← List.sum_map_mul_left]
  have : (w.map fun x => (w.length : ℝ) * x ^ 2).sum ≤ (w.map fun x => R * w.sum * x).sum := by
    apply List.sum_le_sum
    intro x hx
    have := mul_le_mul_of_nonneg_right (each_le hR hx) (hw.1 x hx)
    nlinarith
  rw [map_mul_sum] at this
  nlinarith

theorem sumSq_pos (hw : IsWeights w) : 0 < (w.map (· ^ 2)).sum := by
  obtain ⟨x, hx, h0⟩ := exists_pos_weight hw
  have h1 : ∀ y ∈ w.map (· ^ 2), (0 : ℝ) ≤ y := by
    intro y hy
    obtain ⟨z, -, rfl⟩ := List.mem_map.mp hy
    positivity
  have := List.single_le_sum h1 (x ^ 2) (List.mem_map_of_mem hx)
  nlinarith

theorem ratio_pos (hw : IsWeights w) (hR : ∀ x ∈ w, ∀ y ∈ w, x ≤ R * y) : 1 ≤ R := by
  obtain ⟨x, hx, h0⟩ := exists_pos_weight hw
  have := hR x hx x hx
  nlinarith

/-- Kish's effective size is at least the number of particles over the largest ratio of weights. -/
theorem ess_ge (hw : IsWeights w) (hR : ∀ x ∈ w, ∀ y ∈ w, x ≤ R * y) : (w.length : ℝ) / R ≤ ess w := by
  have h1 := ratio_pos hw hR
  unfold ess
  rw [div_le_div_iff₀ (by linarith) (sumSq_pos hw)]
  linarith [sumSq_le hw hR]

/-- The expected number of distinct particles in a sample as large as the history. -/
theorem uss_ge (hw : IsWeights w) (hR : ∀ x ∈ w, ∀ y ∈ w, x ≤ R * y) :
    (w.length : ℝ) * (1 - Real.exp (-(1 / R))) ≤ distinct w w.length := by
  have h1 := ratio_pos hw hR
  have hlen : 0 < w.length := by
    rw [List.length_pos_iff]
    rintro rfl
    simpa using hw.2
  have hn : (0 : ℝ) < w.length := by exact_mod_cast hlen
  unfold distinct
  have : (w.map fun _ => (1 - Real.exp (-(1 / R)))).sum ≤ (w.map fun x => 1 - (1 - x / w.sum) ^ w.length).sum := by
    apply List.sum_le_sum
    intro x hx
    have hs := hw.2
    have hp : 1 / (R * w.length) ≤ x / w.sum := by
      rw [div_le_div_iff₀ (by positivity) hs]
      nlinarith [each_ge hR hx]
    have hx1 : x / w.sum ≤ 1 := by
      rw [div_le_one hs]; exact List.single_le_sum hw.1 x hx
    have e1 : (1 - x / w.sum) ^ w.length ≤ Real.exp (-(1 / R)) := by
      have a1 : 1 - x / w.sum ≤ Real.exp (-(1 / (R * w.length))) := by
        have := Real.add_one_le_exp (-(1 / (R * w.length)))
        linarith
      calc (1 - x / w.sum) ^ w.length ≤ Real.exp (-(1 / (R * w.length))) ^ w.length := pow_le_pow_left₀ (by linarith) a1 _
        _ = Real.exp (-(1 / R)) := by
          rw [← Real.exp_nat_mul]
          congr 1
          field_simp
    linarith
  simpa using this

theorem pow_le_quadratic {p : ℝ} (h0 : 0 ≤ p) (h1 : p ≤ 1) (k : ℕ) : (1 - p) ^ k ≤ 1 - k * p + k ^ 2 * p ^ 2 / 2 := by
  induction k with
  | zero => simp
  | succ k ih =>
    rw [pow_succ]
    have := mul_le_mul_of_nonneg_right ih (by linarith : 0 ≤ 1 - p)
    push_cast
    have h3 : 0 ≤ (k : ℝ) ^ 2 * p ^ 3 := by positivity
    nlinarith [sq_nonneg p]

/-- The expected number of distinct particles among `k` draws. -/
theorem distinct_ge (hw : IsWeights w) (hR : ∀ x ∈ w, ∀ y ∈ w, x ≤ R * y) (k : ℕ) :
    (k : ℝ) - k ^ 2 * R / (2 * w.length) ≤ distinct w k := by
  have hs := hw.2
  have hlen : 0 < w.length := by
    rw [List.length_pos_iff]
    rintro rfl
    simpa using hw.2
  have hn : (0 : ℝ) < w.length := by exact_mod_cast hlen
  unfold distinct
  have h1 : (w.map fun x => k / w.sum * x - k ^ 2 / (2 * w.sum ^ 2) * x ^ 2).sum ≤ (w.map fun x => 1 - (1 - x / w.sum) ^ k).sum := by
    apply List.sum_le_sum
    intro x hx
    have hx1 : x / w.sum ≤ 1 := by
      rw [div_le_one hs]; exact List.single_le_sum hw.1 x hx
    have := pow_le_quadratic (div_nonneg (hw.1 x hx) hs.le) hx1 k
    have e1 : k / w.sum * x = k * (x / w.sum) := by ring
    have e2 : (k : ℝ) ^ 2 / (2 * w.sum ^ 2) * x ^ 2 = k ^ 2 * (x / w.sum) ^ 2 / 2 := by
      field_simp
    rw [e1, e2]
    linarith
  have h2 : (w.map fun x => k / w.sum * x - k ^ 2 / (2 * w.sum ^ 2) * x ^ 2).sum = k - k ^ 2 / (2 * w.sum ^ 2) * (w.map (· ^ 2)).sum := by
    rw [map_two_sum]
    field_simp
  rw [h2] at h1
  refine le_trans ?_ h1
  have h3 := sumSq_le hw hR
  have : (k : ℝ) ^ 2 / (2 * w.sum ^ 2) * (w.map (· ^ 2)).sum ≤ k ^ 2 * R / (2 * w.length) := by
    rw [div_mul_eq_mul_div, div_le_div_iff₀ (by positivity) (by positivity)]
    nlinarith [mul_le_mul_of_nonneg_left h3 (by positivity : (0 : ℝ) ≤ 2 * k ^ 2)]
  linarith

end

/-- The share of the stored particles that counts at least, whichever effective size is used. -/
noncomputable def Spec.leastShare (lo hi : ℝ) : ℝ := 1 - Real.exp (-Real.exp (lo - hi))

theorem leastShare_pos (lo hi : ℝ) : 0 < leastShare lo hi := by
  unfold leastShare
  have : Real.exp (-Real.exp (lo - hi)) < 1 := by
    rw [Real.exp_lt_one_iff]
    linarith [Real.exp_pos (lo - hi)]
  linarith

theorem size_ge {lo hi : ℝ} {H : List Stage} {n : ℕ} (hr : Rect H n) (hc : Confined lo hi H) (m : Metric) {β : ℝ} (hβ : 0 ≤ β ∧ β ≤ 1) :
    leastShare lo hi * ((H.length * n : ℕ) : ℝ) ≤ sizeAt m H β := by
  have hw := weights_isWeights hr β
  have hR := weights_ratio hr.1 hc hβ
  have hlen : (weights H β).length = H.length * n := by
    unfold weights; rw [List.length_map, hr.length]
  have hinv : 1 / Real.exp (hi - lo) = Real.exp (lo - hi) := by
    rw [one_div, ← Real.exp_neg]; congr 1; ring
  have hu := uss_ge hw hR
  have hs := ess_ge hw hR
  rw [hinv, hlen] at hu
  rw [hlen, div_eq_mul_one_div, hinv] at hs
  cases m with
  | uss =>
    have : (allLogl H).length = (weights H β).length := by unfold weights; simp
    change _ ≤ distinct (weights H β) (allLogl H).length
    rw [this, hlen]
    unfold leastShare
    linarith
  | ess =>
    change _ ≤ ess (weights H β)
    refine le_trans ?_ hs
    have h1 : leastShare lo hi ≤ Real.exp (lo - hi) := by
      unfold leastShare
      have := Real.add_one_le_exp (-Real.exp (lo - hi))
      linarith
    have h0 : (0 : ℝ) ≤ ((H.length * n : ℕ) : ℝ) := Nat.cast_nonneg _
    nlinarith

end Poco
