import Verif.Props.DoubleTrim
import Verif.Props.Resample

/-! # C124: resampling in double precision -/

namespace Poco
open F Spec

variable {A : Arith}

/-- The computed sum of the first `j` weights, added from left to right. -/
noncomputable def cumD (A : Arith) (w : List ℝ) (j : ℕ) : ℝ := (w.take j).foldl (fun c x => A.rnd (c + x)) 0

theorem cumD_zero (w : List ℝ) : cumD A w 0 = 0 := by simp [cumD]

theorem cumD_succ (w : List ℝ) {j : ℕ} (h : j < w.length) : cumD A w (j + 1) = A.rnd (cumD A w j + w[j]) := by
  unfold cumD
  rw [List.take_add_one, List.getElem?_eq_getElem h, Option.toList_some, List.foldl_append]
  rfl

theorem cumD_double (hA : IsDouble A) (w : List ℝ) (j : ℕ) (h : j ≤ w.length) : A.rnd (cumD A w j) = cumD A w j := by
  cases j with
  | zero => rw [cumD_zero, hA.zero]
  | succ j => rw [cumD_succ w (by omega), hA.idem]

theorem cumD_le_succ (hA : IsDouble A) {w : List ℝ} (h0 : ∀ x ∈ w, 0 ≤ x) {j : ℕ} (h : j < w.length) : cumD A w j ≤ cumD A w (j + 1) := by
  rw [cumD_succ w h]
  conv_lhs => rw [← cumD_double hA w j h.le]
  exact hA.mono (by linarith [h0 _ (List.getElem_mem h)])

theorem cumD_mono (hA : IsDouble A) {w : List ℝ} (h0 : ∀ x ∈ w, 0 ≤ x) {i j : ℕ} (hij : i ≤ j) (h : j ≤ w.length) : cumD A w i ≤ cumD A w j := by
  induction j, hij using Nat.le_induction with
  | base => exact le_rfl
  | succ j hj ih => exact (ih (by omega)).trans (cumD_le_succ hA h0 (by omega))

theorem cumD_added (hA : IsDouble A) {w : List ℝ} (hw : ∀ x ∈ w, A.rnd x = x) (j : ℕ) (h : j ≤ w.length) : Added A.rnd (w.take j) (cumD A w j) := by
  induction j with
  | zero => rw [cumD_zero, List.take_zero]; exact Added.nil
  | succ j ih =>
    have hj : j < w.length := by omega
    rw [cumD_succ w hj, List.take_add_one, List.getElem?_eq_getElem hj, Option.toList_some]
    rcases Nat.eq_zero_or_pos j with rfl | hpos
    · rw [cumD_zero, List.take_zero, zero_add, hw _ (List.getElem_mem hj)]
      exact Added.one _
    · refine Added.add (l₁ := w.take j) (l₂ := [w[j]]) ?_ (by simp) (ih hj.le) (Added.one _) (List.Perm.refl _)
      intro hc
      have := congrArg List.length hc
      rw [List.length_take, List.length_nil] at this
      omega

/-- Weights as `trim_weights` returns them: doubles in `[0, 1]` with a sum close to one. -/
structure Spec.NearProbs (A : Arith) (w : List ℝ) : Prop where
  double : ∀ x ∈ w, A.rnd x = x
  nonneg : ∀ x ∈ w, 0 ≤ x
  sum : |w.sum - 1| ≤ w.length * 2⁻¹ ^ 48
  few : w.length ≤ 2 ^ 20
  some : w ≠ []

theorem Spec.NearProbs.few' {w : List ℝ} (h : NearProbs A w) : (w.length : ℝ) ≤ 2 ^ 20 := by exact_mod_cast h.few
theorem Spec.NearProbs.one_le {w : List ℝ} (h : NearProbs A w) : (1 : ℝ) ≤ w.length := by exact_mod_cast List.length_pos_iff.mpr h.some

theorem Spec.NearProbs.sum_range {w : List ℝ} (h : NearProbs A w) : 1 / 2 ≤ w.sum ∧ w.sum ≤ 2 := by
  have h1 := abs_le.mp h.sum
  have h2 : (w.length : ℝ) * 2⁻¹ ^ 48 ≤ 1 / 2 := by
    calc (w.length : ℝ) * 2⁻¹ ^ 48 ≤ 2 ^ 20 * 2⁻¹ ^ 48 := mul_le_mul_of_nonneg_right h.few' (by positivity)
      _ ≤ 1 / 2 := by norm_num
  constructor <;> linarith

theorem Spec.NearProbs.usable {w : List ℝ} (h : NearProbs A w) : Usable w :=
  ⟨h.nonneg, le_trans (by norm_num) h.sum_range.1, h.few.trans (by norm_num)⟩

/-- The computed cumulative sums are the exact ones up to rounding. -/
theorem cumD_close (hA : IsDouble A) {w : List ℝ} (h : NearProbs A w) (j : ℕ) (hj : j ≤ w.length) :
    |cumD A w j - (w.take j).sum| ≤ w.length * 2⁻¹ ^ 50 := by
  have hu := uu_pos
  have heta := eta_pos
  rcases Nat.eq_zero_or_pos j with rfl | hpos
  · rw [cumD_zero, List.take_zero]; simp
  have hne : w.take j ≠ [] := by
    intro hc
    have := congrArg List.length hc
    rw [List.length_take, List.length_nil] at this
    omega
  have hlen : ((w.take j).length : ℝ) ≤ w.length := by rw [List.length_take]; exact_mod_cast Nat.min_le_right _ _
  have hsub : ∀ x ∈ w.take j, 0 ≤ x := fun x hx => h.nonneg x (List.mem_of_mem_take hx)
  have hN : 2 * ((w.take j).length : ℝ) * uu ≤ 1 := by
    have h1 : ((w.take j).length : ℝ) * uu ≤ 2 ^ 20 * uu := mul_le_mul_of_nonneg_right (hlen.trans h.few') hu.le
    have h2 : (2 : ℝ) ^ 20 * uu ≤ 1 / 2 := by unfold uu; norm_num
    linarith
  have herr := (cumD_added hA h.double j hj).err hA.mono hA.zero hA.err hne hsub hN
  have hs : (w.take j).sum ≤ 2 := by
    have : (w.take j).sum ≤ w.sum := by
      conv_rhs => rw [← List.take_append_drop j w, List.sum_append]
      have : 0 ≤ (w.drop j).sum := List.sum_nonneg fun x hx => h.nonneg x (List.mem_of_mem_drop hx)
      linarith
    linarith [h.sum_range.2]
  have hs0 : 0 ≤ (w.take j).sum := List.sum_nonneg hsub
  have h3 : 2 * uu * (w.take j).sum + 2 * eta ≤ 2⁻¹ ^ 50 := by
    have e1 : uu * (w.take j).sum ≤ uu * 2 := mul_le_mul_of_nonneg_left hs hu.le
    have e2 : eta ≤ uu := by unfold eta uu; exact pow_le_pow_of_le_one (by norm_num) (by norm_num) (by norm_num)
    have e3 : 8 * uu = 2⁻¹ ^ 50 := by unfold uu; norm_num
    linarith
  have h1l : (1 : ℝ) ≤ ((w.take j).length : ℝ) := by exact_mod_cast List.length_pos_iff.mpr hne
  refine herr.trans ?_
  exact mul_le_mul (by linarith) h3 (by positivity) (by positivity)

/-! ### systematic resampling -/

theorem sysAdvanceD_spec (w : List ℝ) (p : ℝ) : ∀ (k j : ℕ), w.length - j = k → j < w.length →
    (∃ m, j ≤ m ∧ m < w.length ∧ p ≤ cumD A w (m + 1) ∧ (∀ i, j ≤ i → i < m → cumD A w (i + 1) < p) ∧
      sysAdvanceD A (w.map fin) (fin p) j (fin (cumD A w (j + 1))) = .ok (m, fin (cumD A w (m + 1)))) ∨
    ((∀ m, j ≤ m → m < w.length → cumD A w (m + 1) < p) ∧
      sysAdvanceD A (w.map fin) (fin p) j (fin (cumD A w (j + 1))) = .error .indexError) := by
  intro k
  induction k with
  | zero => intro j h1 h2; omega
  | succ k ih =>
    intro j h1 h2
    rw [sysAdvanceD]
    by_cases hc : cumD A w (j + 1) < p
    · rw [if_pos (by exact hc)]
      by_cases hj : j + 1 < w.length
      · have hget : (w.map fin)[j + 1]? = some (fin w[j + 1]) := by
          rw [List.getElem?_map, List.getElem?_eq_getElem hj]; rfl
        split
        · rename_i heq; rw [hget] at heq; cases heq
        · rename_i v heq
          rw [hget] at heq
          cases heq
          have hr : A.round (fin (cumD A w (j + 1)) + fin w[j + 1]) = fin (cumD A w (j + 1 + 1)) := by
            rw [cumD_succ w hj, fin_add]; rfl
          rw [hr]
          rcases ih (j + 1) (by omega) hj with ⟨m, a1, a2, a3, a4, a5⟩ | ⟨a1, a2⟩
          · refine Or.inl ⟨m, by omega, a2, a3, fun i hi1 hi2 => ?_, a5⟩
            rcases Nat.eq_or_lt_of_le hi1 with rfl | h
            · exact hc
            · exact a4 i h hi2
          · refine Or.inr ⟨fun m hm1 hm2 => ?_, a2⟩
            rcases Nat.eq_or_lt_of_le hm1 with rfl | h
            · exact hc
            · exact a1 m h hm2
      · have hget : (w.map fin)[j + 1]? = none := by
          rw [List.getElem?_eq_none_iff, List.length_map]; omega
        right
        refine ⟨fun m hm1 hm2 => ?_, ?_⟩
        · have : m = j := by omega
          rw [this]; exact hc
        · split
          · rfl
          · rename_i heq; rw [hget] at heq; cases heq
    · rw [if_neg (by exact hc)]
      exact Or.inl ⟨j, le_rfl, h2, not_lt.mp hc, fun i h3 h4 => by omega, rfl⟩

theorem sysLoopD_spec (w : List ℝ) (ps : List ℝ) (hs : ps.Pairwise (· ≤ ·)) : ∀ j, j < w.length →
    (∀ p ∈ ps, ∀ i < j, cumD A w (i + 1) < p) →
    (∃ l, sysLoopD A (w.map fin) (ps.map fin) j (fin (cumD A w (j + 1))) = .ok l ∧
      List.Forall₂ (fun p m => m < w.length ∧ p ≤ cumD A w (m + 1) ∧ ∀ i < m, cumD A w (i + 1) < p) ps l) ∨
    (sysLoopD A (w.map fin) (ps.map fin) j (fin (cumD A w (j + 1))) = .error .indexError ∧ ∃ p ∈ ps, cumD A w w.length < p) := by
  induction ps with
  | nil => intro j _ _; exact Or.inl ⟨[], rfl, List.Forall₂.nil⟩
  | cons p ps ih =>
    intro j hj hb
    rw [List.pairwise_cons] at hs
    rcases sysAdvanceD_spec (A := A) w p _ j rfl hj with ⟨m, a1, a2, a3, a4, a5⟩ | ⟨a1, a2⟩
    · have hall : ∀ i < m, cumD A w (i + 1) < p := fun i hi => by
        rcases Nat.lt_or_ge i j with h | h
        · exact hb p (by simp) i h
        · exact a4 i h hi
      rcases ih hs.2 m a2 fun q hq i hi => lt_of_lt_of_le (hall i hi) (hs.1 q hq) with ⟨l, b1, b2⟩ | ⟨b1, q, hq, b2⟩
      · refine Or.inl ⟨m :: l, ?_, List.Forall₂.cons ⟨a2, a3, hall⟩ b2⟩
        simp only [List.map_cons, sysLoopD, a5, b1]
      · refine Or.inr ⟨?_, q, by simp [hq], b2⟩
        simp only [List.map_cons, sysLoopD, a5, b1]
    · refine Or.inr ⟨?_, p, by simp, ?_⟩
      · simp only [List.map_cons, sysLoopD, a2]
      · have := a1 (w.length - 1) (by omega) (by omega)
        rwa [show w.length - 1 + 1 = w.length by omega] at this

/-- The computed positions. -/
noncomputable def posD (A : Arith) (size : ℕ) (u : ℝ) (i : ℕ) : ℝ := A.rnd (A.rnd (u + i) / size)

theorem sysPositionsD_eq (size : ℕ) (u : ℝ) : sysPositionsD A size u = ((List.range size).map (posD A size u)).map fin := by
  unfold sysPositionsD posD
  rw [List.map_map]
  apply List.map_congr_left
  intro i hi
  have hsz : (size : ℝ) ≠ 0 := by
    have := List.mem_range.mp hi
    have : 0 < size := by omega
    exact_mod_cast this.ne'
  simp only [Function.comp, F.ofNat, fin_add, Arith.round]
  rw [fin_div _ _ hsz]

theorem posD_mono (hA : IsDouble A) (size : ℕ) (u : ℝ) {i j : ℕ} (h : i ≤ j) : posD A size u i ≤ posD A size u j := by
  unfold posD
  apply hA.mono
  apply div_le_div_of_nonneg_right _ (by positivity)
  apply hA.mono
  have : (i : ℝ) ≤ j := by exact_mod_cast h
  linarith

theorem posD_close (hA : IsDouble A) {size : ℕ} {u : ℝ} (hu0 : 0 ≤ u) (hu1 : u ≤ 1) {i : ℕ} (hi : i < size) :
    |posD A size u i - (u + i) / size| ≤ 2⁻¹ ^ 50 := by
  have hu := uu_pos
  have heta : eta ≤ uu := by unfold eta uu; exact pow_le_pow_of_le_one (by norm_num) (by norm_num) (by norm_num)
  have hsz : (1 : ℝ) ≤ size := by exact_mod_cast (by omega : 1 ≤ size)
  have hz0 : (0 : ℝ) < size := by linarith
  have hi' : (i : ℝ) + 1 ≤ size := by exact_mod_cast hi
  have hi0 : (0 : ℝ) ≤ i := by positivity
  have h1 := hA.err (u + i)
  rw [abs_of_nonneg (by linarith : 0 ≤ u + i)] at h1
  have h2 : |A.rnd (u + i) / size - (u + i) / size| ≤ 2 * uu := by
    rw [← sub_div, abs_div, abs_of_pos hz0, div_le_iff₀ hz0]
    have e1 : uu * (u + i) ≤ uu * size := mul_le_mul_of_nonneg_left (by linarith) hu.le
    have e2 : uu * 1 ≤ uu * size := mul_le_mul_of_nonneg_left hsz hu.le
    linarith
  have h3 : (u + i) / size ≤ 1 := by rw [div_le_one hz0]; linarith
  have h4 : 0 ≤ A.rnd (u + i) / size := div_nonneg (hA.nonneg (by linarith)) hz0.le
  have h5 := hA.err (A.rnd (u + i) / size)
  rw [abs_of_nonneg h4] at h5
  have hu1 : uu ≤ 1 / 4 := by unfold uu; norm_num
  have h6 : uu * (A.rnd (u + i) / size) ≤ uu * 2 := mul_le_mul_of_nonneg_left (by linarith [(abs_le.mp h2).2]) hu.le
  have h7 : 8 * uu = 2⁻¹ ^ 50 := by unfold uu; norm_num
  calc |posD A size u i - (u + i) / size| = |(A.rnd (A.rnd (u + i) / size) - A.rnd (u + i) / size) + (A.rnd (u + i) / size - (u + i) / size)| := by
        unfold posD; ring_nf
    _ ≤ |A.rnd (A.rnd (u + i) / size) - A.rnd (u + i) / size| + |A.rnd (u + i) / size - (u + i) / size| := abs_add_le _ _
    _ ≤ 2⁻¹ ^ 50 := by linarith

theorem sysWeightsD_near (hA : IsDouble A) {w : List ℝ} (h : NearProbs A w) : sysWeightsD A (w.map fin) = w.map fin := by
  unfold sysWeightsD
  rw [sumD_fin, fin_sub, if_neg]
  show ¬ (sqrtEps < |A.rnd (A.total w - 1)|)
  rw [not_lt]
  have h1 := sum_close hA h.usable (hA.total w)
  have h2 := h.sum
  have hf := h.few'
  have h3 : |A.total w - 1| ≤ 2⁻¹ ^ 27 := by
    have e1 : (w.length : ℝ) * 2⁻¹ ^ 51 * w.sum ≤ 2 ^ 20 * 2⁻¹ ^ 51 * 2 :=
      mul_le_mul (mul_le_mul_of_nonneg_right hf (by positivity)) h.sum_range.2 (by linarith [h.sum_range.1]) (by positivity)
    have e2 : (w.length : ℝ) * 2⁻¹ ^ 48 ≤ 2 ^ 20 * 2⁻¹ ^ 48 := mul_le_mul_of_nonneg_right hf (by positivity)
    have e3 : (2 : ℝ) ^ 20 * 2⁻¹ ^ 51 * 2 + 2 ^ 20 * 2⁻¹ ^ 48 ≤ 2⁻¹ ^ 27 := by norm_num
    calc |A.total w - 1| = |(A.total w - w.sum) + (w.sum - 1)| := by ring_nf
      _ ≤ |A.total w - w.sum| + |w.sum - 1| := abs_add_le _ _
      _ ≤ _ := by linarith
  have h4 := hA.err (A.total w - 1)
  have hu1 : uu ≤ 1 / 4 := by unfold uu; norm_num
  have h5 : eta ≤ 2⁻¹ ^ 29 := by unfold eta; exact pow_le_pow_of_le_one (by norm_num) (by norm_num) (by norm_num)
  have h6 : uu * |A.total w - 1| ≤ 1 / 4 * |A.total w - 1| := mul_le_mul_of_nonneg_right hu1 (abs_nonneg _)
  have h7 : |A.rnd (A.total w - 1)| ≤ |A.rnd (A.total w - 1) - (A.total w - 1)| + |A.total w - 1| := by
    calc |A.rnd (A.total w - 1)| = |(A.rnd (A.total w - 1) - (A.total w - 1)) + (A.total w - 1)| := by ring_nf
      _ ≤ _ := abs_add_le _ _
  unfold sqrtEps
  have h8 : (5 / 4 : ℝ) * 2⁻¹ ^ 27 + 2⁻¹ ^ 29 ≤ 2⁻¹ ^ 26 := by norm_num
  linarith

theorem cntLe_le (n : ℕ) {x : ℝ} (h : -1 ≤ x) : (cntLe n x : ℝ) ≤ x + 1 := by
  rcases lt_or_ge x 0 with hx | hx
  · rw [cntLe_neg n hx]; push_cast; linarith
  · rw [cntLe_nonneg n hx]
    have a : ((min n (⌊x⌋₊ + 1) : ℕ) : ℝ) ≤ ((⌊x⌋₊ + 1 : ℕ) : ℝ) := by exact_mod_cast Nat.min_le_right _ _
    have b := Nat.floor_le hx
    push_cast at a ⊢
    linarith

theorem le_cntLe (n : ℕ) {x y : ℝ} (h1 : y ≤ x) (h2 : y ≤ n) : y ≤ (cntLe n x : ℝ) := by
  rcases lt_or_ge x 0 with hx | hx
  · rw [cntLe_neg n hx]; push_cast; linarith
  · rw [cntLe_nonneg n hx]
    have a := Nat.lt_floor_add_one x
    push_cast
    exact le_min h2 (by linarith)

theorem cntLe_mono (n : ℕ) {x y : ℝ} (h : x ≤ y) : (cntLe n x : ℝ) ≤ cntLe n y := by
  have : cntLe n x ≤ cntLe n y := by
    unfold cntLe
    apply List.countP_mono_left
    intro i _ hi
    simp only [decide_eq_true_eq] at hi ⊢
    linarith
  exact_mod_cast this

/-- Number of computed positions up to `c`. -/
theorem count_posD (hA : IsDouble A) {size : ℕ} {u c e : ℝ} (hu0 : 0 ≤ u) (hu1 : u ≤ 1) (hc0 : 0 ≤ c) (hc1 : c ≤ 1 + e) (he : 0 ≤ e) :
    |((List.range size).countP (fun i => decide (posD A size u i ≤ c)) : ℝ) - (size * c - u + 1 / 2)| ≤ 1 / 2 + size * (2⁻¹ ^ 50 + e) := by
  rcases Nat.eq_zero_or_pos size with rfl | hpos
  · simp only [List.range_zero, List.countP_nil, Nat.cast_zero, zero_mul, add_zero]
    rw [abs_le]; constructor <;> linarith
  have hz : (0 : ℝ) < size := by exact_mod_cast hpos
  set N : ℕ := (List.range size).countP (fun i => decide (posD A size u i ≤ c)) with hN
  have hd : (0 : ℝ) < 2⁻¹ ^ 50 := by positivity
  have hup : N ≤ cntLe size (size * (c + 2⁻¹ ^ 50) - u) := by
    unfold cntLe
    apply List.countP_mono_left
    intro i hi hpi
    simp only [decide_eq_true_eq] at hpi ⊢
    have := abs_le.mp (posD_close hA hu0 hu1 (List.mem_range.mp hi))
    have h2 : (u + i) / size ≤ c + 2⁻¹ ^ 50 := by linarith
    rw [div_le_iff₀ hz] at h2
    linarith
  have hlo : cntLe size (size * (c - 2⁻¹ ^ 50) - u) ≤ N := by
    unfold cntLe
    apply List.countP_mono_left
    intro i hi hpi
    simp only [decide_eq_true_eq] at hpi ⊢
    have := abs_le.mp (posD_close hA hu0 hu1 (List.mem_range.mp hi))
    have h2 : (u + i) / size ≤ c - 2⁻¹ ^ 50 := by rw [div_le_iff₀ hz]; linarith
    linarith
  have hup' : (N : ℝ) ≤ cntLe size (size * (c + 2⁻¹ ^ 50) - u) := by exact_mod_cast hup
  have hlo' : (cntLe size (size * (c - 2⁻¹ ^ 50) - u) : ℝ) ≤ N := by exact_mod_cast hlo
  have hse : (0 : ℝ) ≤ size * e := by positivity
  have hsd : (0 : ℝ) ≤ size * 2⁻¹ ^ 50 := by positivity
  have hsc : (0 : ℝ) ≤ size * c := by positivity
  have hsc1 : (size : ℝ) * c ≤ size * (1 + e) := mul_le_mul_of_nonneg_left hc1 hz.le
  have h1 := cntLe_le size (x := size * (c + 2⁻¹ ^ 50) - u) (by rw [mul_add]; linarith)
  have h2 := le_cntLe size (x := size * (c - 2⁻¹ ^ 50) - u) (y := size * (c - 2⁻¹ ^ 50) - u - size * e) (by linarith) (by
    rw [mul_sub]; rw [mul_add] at hsc1; linarith)
  have h1 := hup'.trans h1
  have h2 := h2.trans hlo'
  rw [mul_add] at h1
  rw [mul_sub] at h2
  rw [mul_add, abs_le]
  constructor <;> linarith

theorem Spec.NearProbs.cum_range {w : List ℝ} (hA : IsDouble A) (h : NearProbs A w) {j : ℕ} (hj : j ≤ w.length) :
    0 ≤ cumD A w j ∧ cumD A w j ≤ 1 + w.length * (5 * 2⁻¹ ^ 50) := by
  have h0 := cumD_mono hA h.nonneg (Nat.zero_le j) hj
  rw [cumD_zero] at h0
  refine ⟨h0, (cumD_mono hA h.nonneg hj le_rfl).trans ?_⟩
  have h1 := abs_le.mp (cumD_close hA h w.length le_rfl)
  rw [List.take_length] at h1
  have h2 := abs_le.mp h.sum
  have h3 : (w.length : ℝ) * 2⁻¹ ^ 48 = w.length * (4 * 2⁻¹ ^ 50) := by norm_num
  rw [h3] at h2
  linarith

/-- One step of the computed cumulative sums. -/
theorem cumD_step (hA : IsDouble A) {w : List ℝ} (h : NearProbs A w) {j : ℕ} (hj : j < w.length) :
    |cumD A w (j + 1) - cumD A w j - w[j]| ≤ 2⁻¹ ^ 50 := by
  rw [cumD_succ w hj]
  obtain ⟨h0, h1⟩ := h.cum_range hA hj.le
  have hw0 := h.nonneg _ (List.getElem_mem hj)
  have hw1 : w[j] ≤ 2 := (List.single_le_sum h.nonneg _ (List.getElem_mem hj)).trans h.sum_range.2
  have h2 := hA.err (cumD A w j + w[j])
  rw [abs_of_nonneg (add_nonneg h0 hw0)] at h2
  have h3 : (w.length : ℝ) * (5 * 2⁻¹ ^ 50) ≤ 2 ^ 20 * (5 * 2⁻¹ ^ 50) := mul_le_mul_of_nonneg_right h.few' (by positivity)
  have h4 : (2 : ℝ) ^ 20 * (5 * 2⁻¹ ^ 50) ≤ 1 := by norm_num
  have hu := uu_pos
  have h5 : uu * (cumD A w j + w[j]) ≤ uu * 4 := mul_le_mul_of_nonneg_left (by linarith) hu.le
  have heta : eta ≤ uu := by unfold eta uu; exact pow_le_pow_of_le_one (by norm_num) (by norm_num) (by norm_num)
  have h7 : 8 * uu = 2⁻¹ ^ 50 := by unfold uu; norm_num
  rw [show A.rnd (cumD A w j + w[j]) - cumD A w j - w[j] = A.rnd (cumD A w j + w[j]) - (cumD A w j + w[j]) by ring]
  linarith

/-- **C124 (systematic resampling).** In double precision, for a weight vector that trimming can return and a draw `u` in `[0, 1)`,
`systematic_resample` either returns exactly `size` valid indices in non-decreasing order, index `j` about `size · w[j]` times (at most one more or
less, and rounding), particles of zero weight not at all; or it raises `IndexError`, and then `u` is within `size · n · 2⁻⁴⁶` of 1.
Missing: that it always returns — false, see `C124_index_error`. -/
theorem C124_systematic_partial (hA : IsDouble A) (w : List ℝ) (h : NearProbs A w) (size : ℕ) (u : ℝ) (hu0 : 0 ≤ u) (hu1 : u < 1) :
    (∃ l, systematicResampleD A size (w.map fin) u = .ok l ∧ l.length = size ∧ (∀ j ∈ l, j < w.length) ∧ l.Pairwise (· ≤ ·) ∧
      (∀ j (hj : j < w.length), |(l.count j : ℝ) - size * w[j]| ≤ 1 + size * w.length * 2⁻¹ ^ 46) ∧
      (∀ j (hj : j < w.length), 0 < j → w[j] = 0 → j ∉ l)) ∨
    (systematicResampleD A size (w.map fin) u = .error .indexError ∧ 1 - size * w.length * 2⁻¹ ^ 46 < u) := by
  have hl : 0 < w.length := List.length_pos_iff.mpr h.some
  set ps := (List.range size).map (posD A size u) with hps
  have hsort : ps.Pairwise (· ≤ ·) := by
    rw [hps, List.pairwise_map]
    exact List.Pairwise.imp (fun hab => posD_mono hA size u (le_of_lt hab)) List.pairwise_lt_range
  have hrun : systematicResampleD A size (w.map fin) u = sysLoopD A (w.map fin) (ps.map fin) 0 (fin (cumD A w (0 + 1))) := by
    unfold systematicResampleD
    simp only [sysWeightsD_near hA h, sysPositionsD_eq]
    rw [List.getElem?_map, List.getElem?_eq_getElem hl]
    simp only [Option.map_some]
    rw [cumD_succ w hl, cumD_zero, zero_add, h.double _ (List.getElem_mem hl)]
  rw [hrun]
  rcases sysLoopD_spec (A := A) w ps hsort 0 hl (fun _ _ i hi => by omega) with ⟨l, a1, a2⟩ | ⟨a1, p, hp, a2⟩
  · left
    have hlen : l.length = size := by rw [← a2.length_eq, hps, List.length_map, List.length_range]
    have hcount : ∀ (q : List ℝ) (l : List ℕ), List.Forall₂ (fun p m => m < w.length ∧ p ≤ cumD A w (m + 1) ∧ ∀ i < m, cumD A w (i + 1) < p) q l →
        ∀ k, k < w.length → l.countP (fun m => decide (m ≤ k)) = q.countP fun p => decide (p ≤ cumD A w (k + 1)) := by
      intro q l hf k hk
      induction hf with
      | nil => simp
      | @cons p m q l hpm _ ih =>
        rw [List.countP_cons, List.countP_cons, ih]
        congr 1
        by_cases hmk : m ≤ k
        · have : p ≤ cumD A w (k + 1) := hpm.2.1.trans (cumD_mono hA h.nonneg (by omega) (by omega))
          simp [hmk, this]
        · have : ¬ p ≤ cumD A w (k + 1) := not_le.mpr (hpm.2.2 k (by omega))
          simp [hmk, this]
    have hsplit : ∀ (l : List ℕ) k, (l.count k : ℝ) = (l.countP (fun m => decide (m ≤ k)) : ℝ) -
        (if k = 0 then 0 else (l.countP (fun m => decide (m ≤ k - 1)) : ℝ)) := by
      intro l k
      induction l with
      | nil => simp
      | cons m l ih =>
        rw [List.count_cons, List.countP_cons, List.countP_cons]
        push_cast
        rw [ih]
        rcases lt_trichotomy m k with hmk | rfl | hmk
        · have h1 : ¬ k = 0 := by omega
          have h2 : m ≤ k := by omega
          have h3 : m ≤ k - 1 := by omega
          have h4 : ¬ m = k := by omega
          simp [h1, h2, h3, h4]
        · by_cases h0 : m = 0
          · simp [h0]
          · have h3 : ¬ m ≤ m - 1 := by omega
            simp [h0, h3]; ring
        · have h2 : ¬ m ≤ k := by omega
          have h3 : ¬ m ≤ k - 1 := by omega
          have h4 : ¬ m = k := by omega
          simp [h2, h3, h4]
    refine ⟨l, a1, hlen, ?_, ?_, ?_, ?_⟩
    · intro j hj
      obtain ⟨e, f⟩ := List.forall₂_iff_get.mp a2
      obtain ⟨i, hi, rfl⟩ := List.mem_iff_getElem.mp hj
      exact (f i (by omega) hi).1
    · have key : ∀ (q : List ℝ) (l : List ℕ), q.Pairwise (· ≤ ·) → List.Forall₂ (fun p m => m < w.length ∧ p ≤ cumD A w (m + 1) ∧
          ∀ i < m, cumD A w (i + 1) < p) q l → l.Pairwise (· ≤ ·) := by
        intro q l hq hf
        induction hf with
        | nil => exact List.Pairwise.nil
        | @cons p m q l hpm hf ih =>
          rw [List.pairwise_cons] at hq ⊢
          refine ⟨fun m' hm' => ?_, ih hq.2⟩
          obtain ⟨e, f⟩ := List.forall₂_iff_get.mp hf
          obtain ⟨i, hi, rfl⟩ := List.mem_iff_getElem.mp hm'
          have hfi := f i (by omega) hi
          have hple := hq.1 (q.get ⟨i, by omega⟩) (List.get_mem _ _)
          by_contra hcon
          have := hpm.2.2 l[i] (not_le.mp hcon)
          exact absurd (lt_of_lt_of_le this hple) (not_lt.mpr hfi.2.1)
      exact key ps l hsort a2
    · intro j hj
      have hr := h.cum_range hA (show j + 1 ≤ w.length by omega)
      have he : (0 : ℝ) ≤ w.length * (5 * 2⁻¹ ^ 50) := by positivity
      have hc1 := abs_le.mp (count_posD hA (size := size) hu0 hu1.le hr.1 hr.2 he)
      have hst := abs_le.mp (cumD_step hA h hj)
      have hs0 : (0 : ℝ) ≤ size := by positivity
      have hst1 : (size : ℝ) * (cumD A w (j + 1) - cumD A w j - w[j]) ≤ size * 2⁻¹ ^ 50 := mul_le_mul_of_nonneg_left hst.2 hs0
      have hst2 : (size : ℝ) * (-2⁻¹ ^ 50) ≤ size * (cumD A w (j + 1) - cumD A w j - w[j]) := mul_le_mul_of_nonneg_left hst.1 hs0
      have hn1 := h.one_le
      have hsn : (size : ℝ) * 2⁻¹ ^ 50 ≤ size * w.length * 2⁻¹ ^ 50 := by
        have := mul_le_mul_of_nonneg_left hn1 hs0
        rw [mul_one] at this
        exact mul_le_mul_of_nonneg_right this (by positivity)
      have h46 : (size : ℝ) * w.length * 2⁻¹ ^ 46 = 16 * (size * w.length * 2⁻¹ ^ 50) := by
        rw [show (2⁻¹ : ℝ) ^ 46 = 16 * 2⁻¹ ^ 50 by norm_num]; ring
      have hms : (size : ℝ) * (2⁻¹ ^ 50 + w.length * (5 * 2⁻¹ ^ 50)) = size * 2⁻¹ ^ 50 + 5 * (size * w.length * 2⁻¹ ^ 50) := by ring
      rw [hms] at hc1
      rw [hsplit, hcount ps l a2 j hj, h46]
      by_cases hj0 : j = 0
      · subst hj0
        rw [if_pos rfl, sub_zero, hps, List.countP_map]
        rw [cumD_zero] at hst1 hst2
        simp only [sub_zero, mul_sub] at hst1 hst2
        simp only [Function.comp_def]
        rw [abs_le]
        constructor <;> linarith
      · have hr' := h.cum_range hA hj.le
        have hc2 := abs_le.mp (count_posD hA (size := size) hu0 hu1.le hr'.1 hr'.2 he)
        rw [hms] at hc2
        rw [if_neg hj0, hcount ps l a2 (j - 1) (by omega), show j - 1 + 1 = j by omega, hps, List.countP_map, List.countP_map]
        simp only [Function.comp_def]
        simp only [mul_sub] at hst1 hst2
        rw [abs_le]
        constructor <;> linarith
    · intro j hj hj0 hw0 hmem
      obtain ⟨e, f⟩ := List.forall₂_iff_get.mp a2
      obtain ⟨i, hi, rfl⟩ := List.mem_iff_getElem.mp hmem
      have hfi := f i (by omega) hi
      have h1 := hfi.2.1
      have h2 := hfi.2.2 (l[i] - 1) (by simp only [List.get_eq_getElem]; omega)
      simp only [List.get_eq_getElem] at h1 h2
      rw [show l[i] - 1 + 1 = l[i] by omega] at h2
      rw [cumD_succ w hj, hw0, add_zero, cumD_double hA w _ hj.le] at h1
      exact absurd h1 (not_le.mpr h2)
  · right
    refine ⟨a1, ?_⟩
    rw [hps] at hp
    obtain ⟨i, hi, rfl⟩ := List.mem_map.mp hp
    have hi := List.mem_range.mp hi
    have h1 := abs_le.mp (posD_close hA hu0 hu1.le hi)
    have h2 := abs_le.mp (cumD_close hA h w.length le_rfl)
    rw [List.take_length] at h2
    have h3 := abs_le.mp h.sum
    have hz : (0 : ℝ) < size := by exact_mod_cast (by omega : 0 < size)
    have h48 : (w.length : ℝ) * 2⁻¹ ^ 48 = 4 * (w.length * 2⁻¹ ^ 50) := by
      rw [show (2⁻¹ : ℝ) ^ 48 = 4 * 2⁻¹ ^ 50 by norm_num]; ring
    rw [h48] at h3
    have h4 : 1 - (5 * (w.length * 2⁻¹ ^ 50) + 2⁻¹ ^ 50) < (u + i) / size := by linarith
    rw [lt_div_iff₀ hz] at h4
    have hi' : (i : ℝ) + 1 ≤ size := by exact_mod_cast hi
    have hn1 := h.one_le
    have h5 : (2⁻¹ : ℝ) ^ 50 ≤ w.length * 2⁻¹ ^ 50 := by
      have := mul_le_mul_of_nonneg_right hn1 (show (0 : ℝ) ≤ 2⁻¹ ^ 50 by positivity)
      linarith
    have h6 : (5 * ((w.length : ℝ) * 2⁻¹ ^ 50) + 2⁻¹ ^ 50) * size ≤ (16 * (w.length * 2⁻¹ ^ 50)) * size :=
      mul_le_mul_of_nonneg_right (by linarith [show (0 : ℝ) ≤ w.length * 2⁻¹ ^ 50 by positivity]) hz.le
    have h46 : (size : ℝ) * w.length * 2⁻¹ ^ 46 = (16 * (w.length * 2⁻¹ ^ 50)) * size := by
      rw [show (2⁻¹ : ℝ) ^ 46 = 16 * 2⁻¹ ^ 50 by norm_num]; ring
    rw [h46]
    linarith

/-! ### multinomial resampling -/

theorem cumsumFromD_eq (w : List ℝ) : ∀ (v : List ℝ) (k : ℕ), w.drop k = v →
    cumsumFromD A (fin (cumD A w k)) (v.map fin) = (List.range v.length).map fun j => fin (cumD A w (k + j + 1)) := by
  intro v
  induction v with
  | nil => intro k _; rfl
  | cons x v ih =>
    intro k hk
    have hlt : k < w.length := by
      by_contra hc
      rw [List.drop_eq_nil_of_le (not_lt.mp hc)] at hk
      cases hk
    have hx : w[k] = x ∧ w.drop (k + 1) = v := by
      rw [List.drop_eq_getElem_cons hlt] at hk
      exact ⟨(List.cons.inj hk).1, (List.cons.inj hk).2⟩
    have hr : A.round (fin (cumD A w k) + fin x) = fin (cumD A w (k + 1)) := by
      rw [cumD_succ w hlt, hx.1, fin_add]; rfl
    simp only [List.map_cons, cumsumFromD, List.length_cons, hr]
    rw [ih (k + 1) hx.2, List.range_succ_eq_map]
    simp only [List.map_cons, List.map_map, Function.comp_def, Nat.add_zero]
    congr 1
    apply List.map_congr_left
    intro j _
    rw [show k + 1 + j + 1 = k + (j + 1) + 1 by omega]

/-- The computed distribution function of `np.random.choice`. -/
noncomputable def cdfD (A : Arith) (w : List ℝ) (j : ℕ) : ℝ := A.rnd (cumD A w j / cumD A w w.length)

theorem cdfD_close (hA : IsDouble A) {w : List ℝ} (h : NearProbs A w) {j : ℕ} (hj : j ≤ w.length) :
    |cdfD A w j - cumD A w j| ≤ w.length * (8 * 2⁻¹ ^ 50) := by
  have hu := uu_pos
  obtain ⟨hj0, hj1⟩ := h.cum_range hA hj
  have hm := cumD_mono hA h.nonneg hj le_rfl
  have hn1 := h.one_le
  have h2 := abs_le.mp (cumD_close hA h w.length le_rfl)
  rw [List.take_length] at h2
  have h3 := abs_le.mp h.sum
  have h48 : (w.length : ℝ) * 2⁻¹ ^ 48 = 4 * (w.length * 2⁻¹ ^ 50) := by
    rw [show (2⁻¹ : ℝ) ^ 48 = 4 * 2⁻¹ ^ 50 by norm_num]; ring
  rw [h48] at h3
  have hsmall : (w.length : ℝ) * 2⁻¹ ^ 50 ≤ 2⁻¹ ^ 30 := by
    calc (w.length : ℝ) * 2⁻¹ ^ 50 ≤ 2 ^ 20 * 2⁻¹ ^ 50 := mul_le_mul_of_nonneg_right h.few' (by positivity)
      _ ≤ 2⁻¹ ^ 30 := by norm_num
  have hg : (2⁻¹ : ℝ) ^ 30 ≤ 1 / 100 := by norm_num
  set T := cumD A w w.length with hT
  set t := (w.length : ℝ) * 2⁻¹ ^ 50 with ht
  have hT1 : |T - 1| ≤ 5 * t := by rw [abs_le]; constructor <;> linarith
  have hTpos : 0 < T := by linarith [(abs_le.mp hT1).1]
  have hle1 : cumD A w j / T ≤ 1 := by rw [div_le_one hTpos]; exact hm
  have hge0 : 0 ≤ cumD A w j / T := div_nonneg hj0 hTpos.le
  have e1 : |cumD A w j / T - cumD A w j| ≤ 5 * t := by
    have : cumD A w j / T - cumD A w j = (cumD A w j / T) * (1 - T) := by field_simp
    rw [this, abs_mul, abs_of_nonneg hge0, abs_sub_comm]
    calc cumD A w j / T * |T - 1| ≤ 1 * |T - 1| := mul_le_mul_of_nonneg_right hle1 (abs_nonneg _)
      _ ≤ 5 * t := by linarith
  have e2 := hA.err (cumD A w j / T)
  rw [abs_of_nonneg hge0] at e2
  have heta : eta ≤ uu := by unfold eta uu; exact pow_le_pow_of_le_one (by norm_num) (by norm_num) (by norm_num)
  have h7 : 8 * uu = 2⁻¹ ^ 50 := by unfold uu; norm_num
  have h8 : uu * (cumD A w j / T) ≤ uu * 1 := mul_le_mul_of_nonneg_left hle1 hu.le
  have h9 : (2⁻¹ : ℝ) ^ 50 ≤ t := by
    have := mul_le_mul_of_nonneg_right hn1 (show (0 : ℝ) ≤ 2⁻¹ ^ 50 by positivity)
    linarith
  have hgoal : (w.length : ℝ) * (8 * 2⁻¹ ^ 50) = 8 * t := by rw [ht]; ring
  rw [hgoal]
  calc |cdfD A w j - cumD A w j| = |(A.rnd (cumD A w j / T) - cumD A w j / T) + (cumD A w j / T - cumD A w j)| := by
        rw [show cdfD A w j = A.rnd (cumD A w j / T) from rfl]; ring_nf
    _ ≤ |A.rnd (cumD A w j / T) - cumD A w j / T| + |cumD A w j / T - cumD A w j| := abs_add_le _ _
    _ ≤ 8 * t := by linarith

/-- **C124 (multinomial resampling).** In double precision, `np.random.choice` accepts any weight vector that trimming can return, and
each uniform draw selects a valid index of positive weight.  The unit interval is cut into consecutive intervals, the same ones for every
draw, and index `j` is selected on the `j`-th; its length is the weight of `j` up to rounding. -/
theorem C124_choice (hA : IsDouble A) (w : List ℝ) (h : NearProbs A w) :
    ∃ D : ℕ → ℝ, D 0 = 0 ∧ D w.length = 1 ∧ (∀ j (hj : j < w.length), |D (j + 1) - D j - w[j]| ≤ w.length * 2⁻¹ ^ 45) ∧
      ∀ us : List ℝ, (∀ u ∈ us, 0 ≤ u ∧ u < 1) →
        ∃ l, multinomialResampleD A (w.map fin) us = .ok l ∧
          List.Forall₂ (fun u j => ∃ x, w[j]? = some x ∧ 0 < x ∧ D j ≤ u ∧ u < D (j + 1)) us l := by
  have hl : 0 < w.length := List.length_pos_iff.mpr h.some
  have hu := uu_pos
  have heta : eta ≤ uu := by unfold eta uu; exact pow_le_pow_of_le_one (by norm_num) (by norm_num) (by norm_num)
  have hTpos : 0 < cumD A w w.length := by
    have h2 := abs_le.mp (cumD_close hA h w.length le_rfl)
    rw [List.take_length] at h2
    have : (w.length : ℝ) * 2⁻¹ ^ 50 ≤ 2 ^ 20 * 2⁻¹ ^ 50 := mul_le_mul_of_nonneg_right h.few' (by positivity)
    have h3 : (2 : ℝ) ^ 20 * 2⁻¹ ^ 50 ≤ 1 / 4 := by norm_num
    linarith [h.sum_range.1]
  have hD0 : cdfD A w 0 = 0 := by unfold cdfD; rw [cumD_zero, zero_div, hA.zero]
  have hDn : cdfD A w w.length = 1 := by unfold cdfD; rw [div_self hTpos.ne', hA.one]
  refine ⟨cdfD A w, hD0, hDn, ?_, ?_⟩
  · intro j hj
    have h1 := abs_le.mp (cdfD_close hA h (show j + 1 ≤ w.length by omega))
    have h2 := abs_le.mp (cdfD_close hA h hj.le)
    have h3 := abs_le.mp (cumD_step hA h hj)
    have hn1 := h.one_le
    have h9 : (2⁻¹ : ℝ) ^ 50 ≤ w.length * 2⁻¹ ^ 50 := by
      have := mul_le_mul_of_nonneg_right hn1 (show (0 : ℝ) ≤ 2⁻¹ ^ 50 by positivity)
      linarith
    have h45 : (w.length : ℝ) * 2⁻¹ ^ 45 = 32 * (w.length * 2⁻¹ ^ 50) := by
      rw [show (2⁻¹ : ℝ) ^ 45 = 32 * 2⁻¹ ^ 50 by norm_num]; ring
    have h8 : (w.length : ℝ) * (8 * 2⁻¹ ^ 50) = 8 * (w.length * 2⁻¹ ^ 50) := by ring
    rw [h8] at h1 h2
    rw [h45, abs_le]
    constructor <;> linarith
  · intro us hus
    have hcdf : cumsumFromD A 0 (w.map fin) = (List.range w.length).map fun j => fin (cumD A w (j + 1)) := by
      have := cumsumFromD_eq (A := A) w w 0 rfl
      rw [cumD_zero] at this
      simpa [zero_def] using this
    have hlast : ((List.range w.length).map fun j => fin (cumD A w (j + 1))).getLast? = some (fin (cumD A w w.length)) := by
      rw [List.getLast?_map, List.getLast?_range]
      simp [h.some, show w.length - 1 + 1 = w.length by omega]
    have hany : (w.map fin).any (fun x => decide (x < 0) || x.isnan) = false := by
      rw [List.any_eq_false]
      intro x hx
      obtain ⟨r, hr, rfl⟩ := List.mem_map.mp hx
      have := h.nonneg r hr
      simp only [isnan_fin, Bool.or_false, decide_eq_true_eq, zero_def, fin_lt, not_lt]
      exact this
    have hcheck : ¬ (sqrtEps < |A.rnd (A.kahan w - 1)|) := by
      rw [not_lt]
      have h1 := hA.kahan_near w h.nonneg
      have h2 := h.sum
      have hf := h.few'
      have h3 : |A.kahan w - 1| ≤ 2⁻¹ ^ 27 := by
        have e1 : (w.length : ℝ) * 2⁻¹ ^ 52 * w.sum ≤ 2 ^ 20 * 2⁻¹ ^ 52 * 2 :=
          mul_le_mul (mul_le_mul_of_nonneg_right hf (by positivity)) h.sum_range.2 (by linarith [h.sum_range.1]) (by positivity)
        have e2 : (w.length : ℝ) * 2⁻¹ ^ 48 ≤ 2 ^ 20 * 2⁻¹ ^ 48 := mul_le_mul_of_nonneg_right hf (by positivity)
        have e4 : (2⁻¹ : ℝ) ^ 1000 ≤ 2⁻¹ ^ 40 := pow_le_pow_of_le_one (by norm_num) (by norm_num) (by norm_num)
        have e3 : (2 : ℝ) ^ 20 * 2⁻¹ ^ 52 * 2 + 2⁻¹ ^ 40 + 2 ^ 20 * 2⁻¹ ^ 48 ≤ 2⁻¹ ^ 27 := by norm_num
        generalize (2⁻¹ : ℝ) ^ 1000 = t at *
        calc |A.kahan w - 1| = |(A.kahan w - w.sum) + (w.sum - 1)| := by ring_nf
          _ ≤ |A.kahan w - w.sum| + |w.sum - 1| := abs_add_le _ _
          _ ≤ _ := by linarith
      have h4 := hA.err (A.kahan w - 1)
      have hu1 : uu ≤ 1 / 4 := by unfold uu; norm_num
      have h5 : eta ≤ 2⁻¹ ^ 29 := by unfold eta; exact pow_le_pow_of_le_one (by norm_num) (by norm_num) (by norm_num)
      have h6 : uu * |A.kahan w - 1| ≤ 1 / 4 * |A.kahan w - 1| := mul_le_mul_of_nonneg_right hu1 (abs_nonneg _)
      have h7 : |A.rnd (A.kahan w - 1)| ≤ |A.rnd (A.kahan w - 1) - (A.kahan w - 1)| + |A.kahan w - 1| := by
        calc |A.rnd (A.kahan w - 1)| = |(A.rnd (A.kahan w - 1) - (A.kahan w - 1)) + (A.kahan w - 1)| := by ring_nf
          _ ≤ _ := abs_add_le _ _
      unfold sqrtEps
      have h8 : (5 / 4 : ℝ) * 2⁻¹ ^ 27 + 2⁻¹ ^ 29 ≤ 2⁻¹ ^ 26 := by norm_num
      clear h1
      linarith
    have hsum : A.checkSum (w.map fin) = fin (A.kahan w) := by
      unfold Arith.checkSum
      rw [if_pos (by simp [List.all_eq_true]), List.map_map]
      congr 2
      exact List.map_id'' (fun _ => rfl) w
    unfold multinomialResampleD
    simp only [hcdf, hlast, hany, Bool.false_eq_true, if_false, hsum, fin_sub]
    rw [if_neg (by exact hcheck)]
    refine ⟨_, rfl, ?_⟩
    rw [List.forall₂_map_right_iff, List.forall₂_same]
    intro u hu'
    obtain ⟨u0, u1⟩ := hus u hu'
    set f : ℕ → Bool := fun j => decide (cdfD A w (j + 1) ≤ u) with hf
    have hlen : ((((List.range w.length).map fun j => fin (cumD A w (j + 1))).map fun c => A.round (c / fin (cumD A w w.length))).takeWhile
        fun c => decide (c ≤ fin u)).length = (((List.range w.length).map f).takeWhile id).length := by
      have e : (List.range w.length).map f = (((List.range w.length).map fun j => fin (cumD A w (j + 1))).map
          fun c => A.round (c / fin (cumD A w w.length))).map fun c => decide (c ≤ fin u) := by
        simp only [List.map_map]
        apply List.map_congr_left
        intro j _
        simp only [hf, Function.comp, fin_div _ _ hTpos.ne', Arith.round, cdfD]
        exact decide_eq_decide.mpr Iff.rfl
      rw [e, takeWhile_map_length]
    rw [hlen]
    obtain ⟨t1, t2, t3⟩ := takeWhile_range w.length f
    set m := (((List.range w.length).map f).takeWhile id).length with hm
    have hmlt : m < w.length := by
      by_contra hc
      have := t1 (w.length - 1) (by omega)
      simp only [hf, decide_eq_true_eq] at this
      rw [show w.length - 1 + 1 = w.length by omega, hDn] at this
      linarith
    have hlo : cdfD A w m ≤ u := by
      rcases Nat.eq_zero_or_pos m with h0 | h0
      · rw [h0, hD0]; exact u0
      · have := t1 (m - 1) (by omega)
        simp only [hf, decide_eq_true_eq] at this
        rwa [show m - 1 + 1 = m by omega] at this
    have hhi : u < cdfD A w (m + 1) := by
      have := t2 hmlt
      simpa only [hf, decide_eq_false_iff_not, not_le] using this
    refine ⟨w[m], List.getElem?_eq_getElem hmlt, ?_, hlo, hhi⟩
    rcases lt_or_eq_of_le (h.nonneg _ (List.getElem_mem hmlt)) with hp | hp
    · exact hp
    · exfalso
      have : cumD A w (m + 1) = cumD A w m := by
        rw [cumD_succ w hmlt, ← hp, add_zero, cumD_double hA w m hmlt.le]
      unfold cdfD at hlo hhi
      rw [this] at hhi
      linarith

/-- **C124 (from log-weights to indices).** In double precision, computing the weights from usable log-weights, trimming them and drawing from the trimmed
ones by multinomial resampling never raises: there is one index per uniform draw, and it is a position in the array of kept samples. -/
theorem C124_draw {α : Type*} (hA : IsDouble A) (logw : List F) (h : UsableLog logw) (hfew : logw.length ≤ 2 ^ 20) (samples : List α)
    (hs : samples.length = logw.length) (e : ℝ) (he : e ≤ 1 - logw.length * 2⁻¹ ^ 44) (bins : ℕ) (hb : 1 ≤ bins) (us : List ℝ)
    (hus : ∀ u ∈ us, 0 ≤ u ∧ u < 1) :
    ∃ w r l, rawWeightsD A logw = .ok w ∧ trimWeightsD A samples w (fin e) bins = .ok r ∧ multinomialResampleD A r.weights us = .ok l ∧
      l.length = us.length ∧ ∀ j ∈ l, j < r.samples.length := by
  obtain ⟨w, v, E, h1, h2, h3, -⟩ := C122_weights hA logw h
  have hlen : w.length = logw.length := by
    obtain ⟨m, hm, -⟩ := h.max
    rw [rawWeightsD_eq h hm] at h1
    have := congrArg List.length (Except.ok.inj h1)
    simpa using this.symm
  have hsum : 1 ≤ w.sum := List.single_le_sum (fun x hx => (h2 x hx).1) 1 h3
  obtain ⟨r, hr, t, kept, hkept, hne, hk, ⟨z, hz, hz1, hz2, hz3⟩, -⟩ := C123_trim hA samples w ⟨fun x hx => (h2 x hx).1, by linarith⟩
    (le_trans (pow_le_one₀ (by norm_num) (by norm_num)) hsum) (by rw [hlen]; exact hfew.trans (by norm_num)) (by rw [hs, hlen]) e
    (by rw [hlen]; exact he) bins hb
  have hzk : z.length = kept.length := hz3.length_eq
  have hkl : kept.length ≤ w.length := by
    rw [hkept]
    refine (List.length_filter_le _ _).trans ?_
    rw [List.length_zip]
    exact Nat.min_le_right _ _
  have hnear : NearProbs A z := by
    refine ⟨fun x hx => (hz1 x hx).2.2, fun x hx => (hz1 x hx).1, hz2.trans ?_, by omega, ?_⟩
    · exact mul_le_mul_of_nonneg_left (by norm_num) (by positivity)
    · intro hc
      rw [hc] at hzk
      exact hne (List.length_eq_zero_iff.mp hzk.symm)
  obtain ⟨D, -, -, -, hD⟩ := C124_choice hA z hnear
  obtain ⟨l, hl1, hl2⟩ := hD us hus
  refine ⟨w.map fin, r, l, h1, hr, by rw [hz]; exact hl1, hl2.length_eq.symm, ?_⟩
  intro j hj
  obtain ⟨e', f⟩ := List.forall₂_iff_get.mp hl2
  obtain ⟨i, hi, rfl⟩ := List.mem_iff_getElem.mp hj
  obtain ⟨x, hx, -⟩ := f i (by omega) hi
  have := (List.getElem?_eq_some_iff.mp hx).1
  rw [hk, List.length_map, ← hzk]
  exact this

end Poco
