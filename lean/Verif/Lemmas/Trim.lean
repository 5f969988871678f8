import Verif.Lemmas.Weights
import Verif.Spec.Trim
import Mathlib.Data.List.Sort
import Mathlib.Tactic.Positivity
import Mathlib.Tactic.FieldSimp

/-! Lemmas for `trim_weights`. -/

namespace Poco
open F Spec Classical

theorem mergeSort_fin (w : List ℝ) :
    (w.map fin).mergeSort (fun x y => decide (x ≤ y)) = (w.mergeSort (fun x y => decide (x ≤ y))).map fin := by
  symm
  apply List.map_mergeSort
  intro a _ b _
  simp

theorem floor_range {n : ℕ} (hn : 0 < n) {p : ℝ} (_h0 : 0 ≤ p) (h1 : p ≤ 100) :
    ⌊((n : ℝ) - 1) * (p / 100)⌋₊ ≤ n - 1 := by
  have hn' : (1 : ℝ) ≤ n := by exact_mod_cast hn
  have : ((n : ℝ) - 1) * (p / 100) ≤ ((n - 1 : ℕ) : ℝ) := by
    rw [Nat.cast_sub (by omega)]
    have : p / 100 ≤ 1 := by linarith
    have h2 : (0 : ℝ) ≤ (n : ℝ) - 1 := by linarith
    calc ((n : ℝ) - 1) * (p / 100) ≤ ((n : ℝ) - 1) * 1 := mul_le_mul_of_nonneg_left this h2
      _ = _ := by simp
  have h3 := Nat.floor_le_floor this
  simpa using h3

theorem percentile_fin (w : List ℝ) (hw : w ≠ []) (p : ℝ) (h0 : 0 ≤ p) (h1 : p ≤ 100) :
    Poco.percentile (w.map fin) p = .ok (fin (Spec.percentile w p)) := by
  have hn : 0 < w.length := List.length_pos_iff.mpr hw
  have hk := floor_range hn h0 h1
  unfold Poco.percentile Spec.percentile
  have hany : (w.map fin).any isnan = false := by simp
  rw [hany]
  simp only [Bool.false_eq_true, if_false, mergeSort_fin, List.length_map]
  set k := ⌊((w.length : ℝ) - 1) * (p / 100)⌋₊ with hkdef
  set a := w.mergeSort (fun x y => decide (x ≤ y)) with ha
  have hal : a.length = w.length := by simp [ha]
  have e1 : (a.map fin)[k]? = some (fin (a.getD k 0)) := by
    rw [List.getElem?_map, List.getElem?_eq_getElem (by omega)]
    simp [List.getD, List.getElem?_eq_getElem (show k < a.length by omega)]
  have e2 : (a.map fin)[min (k + 1) (w.length - 1)]? = some (fin (a.getD (min (k + 1) (w.length - 1)) 0)) := by
    rw [List.getElem?_map, List.getElem?_eq_getElem (by omega)]
    simp [List.getD, List.getElem?_eq_getElem (show min (k + 1) (w.length - 1) < a.length by omega)]
  rw [e1, e2]
  simp

theorem getD_mem_of_lt {a : List ℝ} {k : ℕ} (h : k < a.length) : a.getD k 0 ∈ a := by
  simp [List.getD, List.getElem?_eq_getElem h]

theorem percentile_le_mem (w : List ℝ) (hw : w ≠ []) (p : ℝ) (h0 : 0 ≤ p) (h1 : p ≤ 100) :
    ∃ m ∈ w, Spec.percentile w p ≤ m := by
  have hn : 0 < w.length := List.length_pos_iff.mpr hw
  have hk := floor_range hn h0 h1
  have hn' : (1 : ℝ) ≤ w.length := by exact_mod_cast hn
  unfold Spec.percentile
  set h := ((w.length : ℝ) - 1) * (p / 100) with hh
  set a := w.mergeSort (fun x y => decide (x ≤ y)) with ha
  have hal : a.length = w.length := by simp [ha]
  have hlo : a.getD ⌊h⌋₊ 0 ∈ w := by
    have := getD_mem_of_lt (a := a) (k := ⌊h⌋₊) (by omega)
    simpa [ha] using this
  have hhi : a.getD (min (⌊h⌋₊ + 1) (w.length - 1)) 0 ∈ w := by
    have := getD_mem_of_lt (a := a) (k := min (⌊h⌋₊ + 1) (w.length - 1)) (by omega)
    simpa [ha] using this
  have hnn : 0 ≤ h := mul_nonneg (by linarith) (by positivity)
  have f0 : 0 ≤ h - ⌊h⌋₊ := by have := Nat.floor_le hnn; linarith
  have f1 : h - ⌊h⌋₊ ≤ 1 := by have := Nat.lt_floor_add_one h; linarith
  simp only
  generalize a.getD ⌊h⌋₊ 0 = lo at *
  generalize a.getD (min (⌊h⌋₊ + 1) (w.length - 1)) 0 = hi at *
  rcases le_total lo hi with hc | hc
  · exact ⟨hi, hhi, by nlinarith⟩
  · exact ⟨lo, hlo, by nlinarith⟩

theorem percentile_zero_le (w : List ℝ) (hw : w ≠ []) : ∀ x ∈ w, Spec.percentile w 0 ≤ x := by
  have hn : 0 < w.length := List.length_pos_iff.mpr hw
  intro x hx
  unfold Spec.percentile
  set a := w.mergeSort (fun x y => decide (x ≤ y)) with ha
  have hal : a.length = w.length := by simp [ha]
  have hs : a.Pairwise (fun x y => decide (x ≤ y) = true) := by
    apply List.pairwise_mergeSort
    · intro a b c h1 h2
      simp only [decide_eq_true_eq] at *
      exact h1.trans h2
    · intro a b
      simp only [Bool.or_eq_true, decide_eq_true_eq]
      exact le_total a b
  have hxa : x ∈ a := by simpa [ha] using hx
  simp only [zero_div, mul_zero, Nat.floor_zero, Nat.cast_zero, sub_zero, add_zero]
  cases hc : a with
  | nil => rw [hc] at hxa; simp at hxa
  | cons b l =>
    rw [hc] at hs hxa
    simp only [List.getD_cons_zero]
    rcases List.mem_cons.mp hxa with rfl | h
    · exact le_refl _
    · have := (List.pairwise_cons.mp hs).1 x h
      simpa using this

/-! ### dropping light weights cannot raise the ESS -/

theorem sum_filter_split (w : List ℝ) (t : ℝ) :
    w.sum = (w.filter fun x => decide (t ≤ x)).sum + (w.filter fun x => !decide (t ≤ x)).sum := by
  induction w with
  | nil => simp
  | cons a w ih =>
    by_cases h : t ≤ a
    · simp only [List.filter_cons, h, decide_true, if_true, List.sum_cons, Bool.not_true, Bool.false_eq_true, if_false]
      rw [ih]; ring
    · simp only [List.filter_cons, h, decide_false, if_true, List.sum_cons, Bool.not_false, Bool.false_eq_true, if_false]
      rw [ih]; ring

theorem sumsq_filter_split (w : List ℝ) (t : ℝ) :
    (w.map (· ^ 2)).sum = ((w.filter fun x => decide (t ≤ x)).map (· ^ 2)).sum
      + ((w.filter fun x => !decide (t ≤ x)).map (· ^ 2)).sum := by
  induction w with
  | nil => simp
  | cons a w ih =>
    by_cases h : t ≤ a
    · simp only [List.filter_cons, h, decide_true, if_true, List.map_cons, List.sum_cons, Bool.not_true,
        Bool.false_eq_true, if_false]
      rw [ih]; ring
    · simp only [List.filter_cons, h, decide_false, if_true, List.map_cons, List.sum_cons, Bool.not_false,
        Bool.false_eq_true, if_false]
      rw [ih]; ring

theorem sumsq_le_of_le (l : List ℝ) (t : ℝ) (h : ∀ x ∈ l, 0 ≤ x ∧ x ≤ t) : (l.map (· ^ 2)).sum ≤ t * l.sum := by
  rw [← list_sum_map_mul]
  apply List.sum_le_sum
  intro x hx
  have := h x hx
  nlinarith

theorem le_sumsq_of_le (l : List ℝ) (t : ℝ) (h : ∀ x ∈ l, 0 ≤ x ∧ t ≤ x) : t * l.sum ≤ (l.map (· ^ 2)).sum := by
  rw [← list_sum_map_mul]
  apply List.sum_le_sum
  intro x hx
  have := h x hx
  nlinarith

theorem ess_filter_le (w : List ℝ) (h : IsWeights w) (t : ℝ)
    (hk : 0 < (w.filter fun x => decide (t ≤ x)).sum) : ess (w.filter fun x => decide (t ≤ x)) ≤ ess w := by
  set K := w.filter fun x => decide (t ≤ x) with hK
  set D := w.filter fun x => !decide (t ≤ x) with hD
  have hs : w.sum = K.sum + D.sum := sum_filter_split w t
  have hq : (w.map (· ^ 2)).sum = (K.map (· ^ 2)).sum + (D.map (· ^ 2)).sum := sumsq_filter_split w t
  have hD0 : ∀ x ∈ D, 0 ≤ x ∧ x ≤ t := by
    intro x hx
    rw [hD, List.mem_filter] at hx
    simp only [Bool.not_eq_true', decide_eq_false_iff_not, not_le] at hx
    exact ⟨h.1 x hx.1, hx.2.le⟩
  have hK0 : ∀ x ∈ K, 0 ≤ x ∧ t ≤ x := by
    intro x hx
    rw [hK, List.mem_filter] at hx
    simp only [decide_eq_true_eq] at hx
    exact ⟨h.1 x hx.1, hx.2⟩
  have hDs : 0 ≤ D.sum := List.sum_nonneg fun x hx => (hD0 x hx).1
  have h1 := sumsq_le_of_le D t hD0
  have h2 := le_sumsq_of_le K t hK0
  have hqK : 0 < (K.map (· ^ 2)).sum := list_sumsq_pos K hk.ne'
  have hqD : 0 ≤ (D.map (· ^ 2)).sum := list_sum_sq_nonneg D
  unfold ess
  rw [hs, hq, div_le_div_iff₀ hqK (by linarith)]
  set a := K.sum
  set b := D.sum
  set A := (K.map (· ^ 2)).sum
  set B := (D.map (· ^ 2)).sum
  have h3 : B * a ≤ b * A := by nlinarith
  nlinarith [mul_le_mul_of_nonneg_left h3 hk.le, mul_nonneg hDs hqK.le, mul_nonneg (mul_nonneg hDs hk.le) hqK.le,
    mul_nonneg (mul_nonneg hDs hDs) hqK.le]

/-! ### mask selection -/

theorem maskSelect_map {α β : Type*} (f : β → Bool) (w : List β) (a : List α) (hl : a.length = w.length) :
    maskSelect (w.map f) a = ((a.zip w).filter fun q => f q.2).map (·.1) := by
  induction w generalizing a with
  | nil =>
    have : a = [] := List.length_eq_zero_iff.mp (by simpa using hl)
    subst this; rfl
  | cons b w ih =>
    cases a with
    | nil => simp at hl
    | cons x a =>
      have hl' : a.length = w.length := by simpa using hl
      have := ih a hl'
      unfold maskSelect at *
      simp only [List.map_cons, List.zip_cons_cons, List.filter_cons]
      cases f b <;> simp [this]

theorem maskSelect_self {β : Type*} (f : β → Bool) (w : List β) : maskSelect (w.map f) w = w.filter f := by
  induction w with
  | nil => rfl
  | cons b w ih =>
    unfold maskSelect at *
    simp only [List.map_cons, List.zip_cons_cons, List.filter_cons]
    cases f b <;> simp [ih]

theorem zip_filter_snd {α β : Type*} (f : β → Bool) (a : List α) (w : List β) (hl : a.length = w.length) :
    ((a.zip w).filter fun q => f q.2).map (·.2) = w.filter f := by
  induction w generalizing a with
  | nil => simp
  | cons b w ih =>
    cases a with
    | nil => simp at hl
    | cons x a =>
      have := ih a (by simpa using hl)
      simp only [List.zip_cons_cons, List.filter_cons]
      cases f b <;> simp [this]

/-! ### the loop -/

theorem percentileGrid_get (bins i : ℕ) (h : i < bins) : (percentileGrid bins)[i]? = some (gridPoint bins i) := by
  unfold percentileGrid gridPoint
  rw [List.getElem?_map, List.getElem?_range h]
  simp only [Option.map_some, Option.some.injEq]
  split
  · subst_vars
    have : i = 0 := by omega
    subst this; simp
  · rfl

theorem gridPoint_range (bins i : ℕ) (h : i < bins) : 0 ≤ gridPoint bins i ∧ gridPoint bins i ≤ 100 := by
  unfold gridPoint
  have h1 : (1 : ℝ) ≤ bins := by exact_mod_cast (by omega : 1 ≤ bins)
  have hi : (i : ℝ) ≤ (bins : ℝ) - 1 := by
    have : i + 1 ≤ bins := h
    have : ((i + 1 : ℕ) : ℝ) ≤ bins := by exact_mod_cast this
    push_cast at this; linarith
  refine ⟨div_nonneg (by positivity) (by linarith), ?_⟩
  by_cases hb : (bins : ℝ) - 1 = 0
  · rw [hb, div_zero]; norm_num
  · rw [div_le_iff₀ (lt_of_le_of_ne (by linarith) (Ne.symm hb))]
    have : (0 : ℝ) ≤ i := by positivity
    nlinarith

theorem keptAt_sum_pos (w : List ℝ) (h : IsWeights w) (bins i : ℕ) (hi : i < bins) :
    0 < (keptAt w bins i).sum := by
  obtain ⟨g0, g1⟩ := gridPoint_range bins i hi
  obtain ⟨m, hm, hle⟩ := percentile_le_mem w h.ne_nil _ g0 g1
  by_contra hc
  have h0 : ∀ x ∈ keptAt w bins i, 0 ≤ x := fun x hx => h.1 x (List.mem_filter.mp hx).1
  have hz : (keptAt w bins i).sum = 0 := le_antisymm (not_lt.mp hc) (List.sum_nonneg h0)
  have hz' := list_all_zero_of_sum_zero h0 hz
  have hmz : ∀ y ∈ w, Spec.percentile w (gridPoint bins i) ≤ y → y = 0 := fun y hy hle =>
    hz' y (List.mem_filter.mpr ⟨hy, by simpa using hle⟩)
  have hm0 := hmz m hm hle
  have hall : ∀ x ∈ w, x = 0 := by
    intro x hx
    exact hmz x hx (by rw [hm0] at hle; exact hle.trans (h.1 x hx))
  have := list_sum_const w 0 hall
  have h2 := h.2
  rw [this] at h2; simp at h2

theorem keptAt_zero (w : List ℝ) (hw : w ≠ []) (bins : ℕ) : keptAt w bins 0 = w := by
  unfold keptAt gridPoint
  rw [List.filter_eq_self]
  intro x hx
  simpa using percentile_zero_le w hw x hx

/-- One evaluation of the loop body at grid index `i` on weights `w` of positive sum. -/
theorem trimLoop_step {α : Type*} (samples : List α) (w : List ℝ) (h : IsWeights w) (hl : samples.length = w.length)
    (e T : ℝ) (hT : 0 < T) (bins i : ℕ) (hi : i < bins) (iz : ℤ) (hz : pyGet? (percentileGrid bins) iz = some (gridPoint bins i)) :
    trimLoop samples (w.map fin) (fin T) (fin e) (percentileGrid bins) iz =
      if e ≤ ess (keptAt w bins i) / T then
        .ok (((samples.zip w).filter fun q => decide (Spec.percentile w (gridPoint bins i) ≤ q.2)).map (·.1),
          (keptAt w bins i).map fun x => fin (x / (keptAt w bins i).sum))
      else trimLoop samples (w.map fin) (fin T) (fin e) (percentileGrid bins) (iz - 1) := by
  obtain ⟨g0, g1⟩ := gridPoint_range bins i hi
  have hkp := keptAt_sum_pos w h bins i hi
  have hmask : (w.map fin).map (fun x => decide (fin (Spec.percentile w (gridPoint bins i)) ≤ x))
      = w.map fun x => decide (Spec.percentile w (gridPoint bins i) ≤ x) := by simp
  have hsel : maskSelect (w.map fun x => decide (Spec.percentile w (gridPoint bins i) ≤ x)) (w.map fin)
      = (keptAt w bins i).map fin := by
    have := maskSelect_self (fun x : F => decide (fin (Spec.percentile w (gridPoint bins i)) ≤ x)) (w.map fin)
    rw [hmask] at this
    rw [this, List.filter_map]
    simp [keptAt, Function.comp_def]
  have hsame := maskSelect_map (fun x => decide (Spec.percentile w (gridPoint bins i) ≤ x)) w samples hl
  rw [trimLoop]
  split
  · rename_i heq; rw [hz] at heq; cases heq
  · rename_i p heq
    rw [hz] at heq
    simp only [Option.some.injEq] at heq
    subst heq
    rw [percentile_fin w h.ne_nil _ g0 g1]
    simp only [hmask, hsel, normalize_fin _ hkp.ne']
    rw [invSumSq_fin _ (by rw [sum_normalized hkp.ne']; norm_num), inv_sumsq_normalized hkp.ne', fin_div _ _ hT.ne']
    simp only [fin_le, hsame, List.length_map, hl, if_true]
    simp only [List.map_map, Function.comp_def]

end Poco
