import Verif.Props.DoubleResample
import Verif.Props.Geometry
import Verif.Lemmas.Trim

/-! # A machine with the properties assumed in C122-C124, and an `IndexError` of systematic resampling on it -/

namespace Poco
open F Spec

theorem round53_near_pos {x : ℝ} (hx : 0 < x) : |round53 x - x| ≤ 2⁻¹ ^ 53 * x := by
  rw [round53_pos hx]
  set e := Int.log 2 x with he
  have hp : (0 : ℝ) < 2 ^ (e - 52) := by positivity
  have hr := abs_sub_round (x / 2 ^ (e - 52))
  rw [abs_sub_comm] at hr
  have h1 : (2 : ℝ) ^ e ≤ x := by exact_mod_cast Int.zpow_log_le_self (b := 2) one_lt_two hx
  have hs : (2 : ℝ) ^ e = 2 ^ 52 * 2 ^ (e - 52) := by
    rw [← zpow_natCast (2 : ℝ) 52, ← zpow_add₀ two_ne_zero]; congr 1; push_cast; ring
  have h2 : (round (x / 2 ^ (e - 52)) : ℝ) * 2 ^ (e - 52) - x = ((round (x / 2 ^ (e - 52)) : ℝ) - x / 2 ^ (e - 52)) * 2 ^ (e - 52) := by
    field_simp
  rw [h2, abs_mul, abs_of_pos hp]
  calc |(round (x / 2 ^ (e - 52)) : ℝ) - x / 2 ^ (e - 52)| * 2 ^ (e - 52) ≤ 1 / 2 * 2 ^ (e - 52) := mul_le_mul_of_nonneg_right hr hp.le
    _ = 2⁻¹ ^ 53 * 2 ^ e := by rw [hs]; ring_nf
    _ ≤ 2⁻¹ ^ 53 * x := mul_le_mul_of_nonneg_left h1 (by positivity)

theorem round53_near (x : ℝ) : |round53 x - x| ≤ 2⁻¹ ^ 53 * |x| := by
  rcases lt_trichotomy x 0 with h | h | h
  · have := round53_near_pos (neg_pos.mpr h)
    rw [round53_neg] at this
    rw [abs_of_neg h, abs_sub_comm]
    rwa [show -round53 x - -x = x - round53 x by ring] at this
  · rw [h, round53_zero]; simp
  · rw [abs_of_pos h]; exact round53_near_pos h

theorem round_mono' {x y : ℝ} (h : x ≤ y) : round x ≤ round y := by
  rw [round_eq, round_eq]
  exact Int.floor_le_floor (by linarith)

theorem round53_range {x : ℝ} (hx : 0 < x) : (2 : ℝ) ^ Int.log 2 x ≤ round53 x ∧ round53 x ≤ 2 ^ (Int.log 2 x + 1) := by
  rw [round53_pos hx]
  set e := Int.log 2 x with he
  have hp : (0 : ℝ) < 2 ^ (e - 52) := by positivity
  have hs : (2 : ℝ) ^ e = ((2 ^ 52 : ℤ) : ℝ) * 2 ^ (e - 52) := by
    rw [Int.cast_pow, Int.cast_ofNat]
    rw [← zpow_natCast (2 : ℝ) 52, ← zpow_add₀ two_ne_zero]; congr 1; push_cast; ring
  have hs1 : (2 : ℝ) ^ (e + 1) = ((2 ^ 53 : ℤ) : ℝ) * 2 ^ (e - 52) := by
    rw [Int.cast_pow, Int.cast_ofNat]
    rw [← zpow_natCast (2 : ℝ) 53, ← zpow_add₀ two_ne_zero]; congr 1; push_cast; ring
  have h1 : (2 : ℝ) ^ e ≤ x := by exact_mod_cast Int.zpow_log_le_self (b := 2) one_lt_two hx
  have h2 : x < 2 ^ (e + 1) := by exact_mod_cast Int.lt_zpow_succ_log_self (b := 2) one_lt_two x
  rw [hs] at h1
  rw [hs1] at h2
  rw [hs, hs1]
  constructor
  · apply mul_le_mul_of_nonneg_right _ hp.le
    have : (2 ^ 52 : ℤ) ≤ round (x / 2 ^ (e - 52)) := by
      rw [← round_intCast (α := ℝ) (2 ^ 52)]
      exact round_mono' ((le_div_iff₀ hp).mpr h1)
    exact_mod_cast this
  · apply mul_le_mul_of_nonneg_right _ hp.le
    have : round (x / 2 ^ (e - 52)) ≤ (2 ^ 53 : ℤ) := by
      rw [← round_intCast (α := ℝ) (2 ^ 53)]
      exact round_mono' ((div_le_iff₀ hp).mpr h2.le)
    exact_mod_cast this

theorem round53_nonneg {x : ℝ} (hx : 0 ≤ x) : 0 ≤ round53 x := by
  rcases hx.eq_or_lt with h | h
  · rw [← h, round53_zero]
  · exact le_trans (by positivity) (round53_range h).1

theorem round53_mono_pos {x y : ℝ} (hx : 0 < x) (hxy : x ≤ y) : round53 x ≤ round53 y := by
  have hy : 0 < y := hx.trans_le hxy
  rcases (Int.log_mono_right (b := 2) hx hxy).lt_or_eq with h | h
  · exact (round53_range hx).2.trans (le_trans (zpow_le_zpow_right₀ one_le_two (by omega)) (round53_range hy).1)
  · rw [round53_pos hx, round53_pos hy, h]
    apply mul_le_mul_of_nonneg_right _ (by positivity)
    exact_mod_cast round_mono' (div_le_div_of_nonneg_right hxy (by positivity))

theorem round53_mono : Monotone round53 := by
  intro x y hxy
  rcases lt_or_ge 0 x with hx | hx
  · exact round53_mono_pos hx hxy
  · rcases lt_or_ge y 0 with hy | hy
    · have := round53_mono_pos (neg_pos.mpr hy) (neg_le_neg hxy)
      rw [round53_neg, round53_neg] at this
      linarith
    · have h1 := round53_nonneg (neg_nonneg.mpr hx)
      rw [round53_neg] at h1
      linarith [round53_nonneg hy]

/-- A machine: 53-bit rounding, correctly rounded `exp`, `sum` from left to right, exact percentiles and compensated sums. -/
noncomputable def demoArith : Arith where
  rnd := round53
  exp := fun x => round53 (Real.exp x)
  total := fun l => match l with
    | [] => 0
    | x :: l => l.foldl (fun c y => round53 (c + y)) x
  pct := Spec.percentile
  kahan := List.sum

theorem foldl_added (l : List ℝ) : ∀ (p : List ℝ) (s : ℝ), p ≠ [] → Added round53 p s →
    Added round53 (p ++ l) (l.foldl (fun c y => round53 (c + y)) s) := by
  induction l with
  | nil => intro p s _ h; simpa using h
  | cons x l ih =>
    intro p s hp h
    have := ih (p ++ [x]) (round53 (s + x)) (by simp) (Added.add hp (by simp) h (Added.one x) (List.Perm.refl _))
    simpa using this

theorem demo_double : IsDouble demoArith where
  mono := round53_mono
  idem := round53_idem
  neg := round53_neg
  nat := round53_nat
  near := fun x => (round53_near x).trans (le_add_of_nonneg_right (by positivity))
  exp_double := fun x => round53_idem _
  exp_zero := by
    show round53 (Real.exp 0) = 1
    rw [Real.exp_zero]
    exact_mod_cast round53_nat 1 (by norm_num)
  exp_range := by
    intro x hx
    refine ⟨round53_nonneg (Real.exp_pos x).le, ?_⟩
    have h1 : round53 1 = 1 := by exact_mod_cast round53_nat 1 (by norm_num)
    show round53 (Real.exp x) ≤ 1
    rw [← h1]
    exact round53_mono (Real.exp_le_one_iff.mpr hx)
  exp_near := by
    intro x _
    have h1 := round53_near_pos (Real.exp_pos x)
    have h2 : (2⁻¹ : ℝ) ^ 53 * Real.exp x ≤ 2⁻¹ ^ 52 * Real.exp x := mul_le_mul_of_nonneg_right (by norm_num) (Real.exp_pos x).le
    exact (h1.trans h2).trans (le_add_of_nonneg_right (by positivity))
  total := by
    intro l
    cases l with
    | nil => exact Added.nil
    | cons x l => exact foldl_added l [x] x (by simp) (Added.one x)
  kahan_near := by
    intro l hl
    show |l.sum - l.sum| ≤ _
    rw [sub_self, abs_zero]
    have := List.sum_nonneg hl
    exact add_nonneg (mul_nonneg (by positivity) this) (by positivity)
  pct_le := fun l hl p h0 h1 => percentile_le_mem l hl p h0 h1
  pct_zero := by
    intro l hl
    refine ⟨?_, percentile_zero_le l hl⟩
    show Spec.percentile l 0 ∈ l
    unfold Spec.percentile
    simp only [zero_div, mul_zero, Nat.floor_zero, Nat.cast_zero, sub_zero, add_zero]
    have hn : 0 < (l.mergeSort fun x y => decide (x ≤ y)).length := by
      rw [List.length_mergeSort]; exact List.length_pos_iff.mpr hl
    rw [List.getD_eq_getElem?_getD, List.getElem?_eq_getElem hn]
    exact (List.mergeSort_perm l _).mem_iff.mp (List.getElem_mem hn)

/-! ### the hypotheses of C122-C124 are met -/

example : UsableLog [fin 0, fin (-1), ninf] := ⟨by simp, by simp, ⟨0, by simp⟩, by norm_num⟩

example : ∃ w v : List ℝ, ∃ e : ℝ, rawWeightsD demoArith [fin 0, fin (-1), ninf] = .ok (w.map fin) ∧ 1 ∈ w ∧
    effectiveSampleSizeD demoArith (w.map fin) = (v.map fin, fin e) := by
  obtain ⟨w, v, e, h1, -, h2, h3, -⟩ := C122_weights demo_double [fin 0, fin (-1), ninf] ⟨by simp, by simp, ⟨0, by simp⟩, by norm_num⟩
  exact ⟨w, v, e, h1, h2, h3⟩

example : ∃ r, trimWeightsD demoArith ["a", "b", "c"] ([1, 2, 3].map fin) (fin 0.99) 1000 = .ok r := by
  obtain ⟨r, h, -⟩ := C123_trim demo_double ["a", "b", "c"] [1, 2, 3] ⟨by simp, by norm_num⟩ (by norm_num) (by norm_num) rfl 0.99
    (by norm_num) 1000 (by norm_num)
  exact ⟨r, h⟩

/-! ### an `IndexError` -/

theorem round53_of {x : ℝ} (e m : ℤ) (h1 : (2 : ℝ) ^ e ≤ x) (h2 : x < 2 ^ (e + 1)) (h3 : (m : ℝ) - 1 / 2 ≤ x / 2 ^ (e - 52))
    (h4 : x / 2 ^ (e - 52) < m + 1 / 2) : round53 x = m * 2 ^ (e - 52) := by
  have hx : 0 < x := lt_of_lt_of_le (by positivity) h1
  rw [round53_pos hx, log2_eq h1 h2, round_eq_iff.mpr ⟨h3, h4⟩]

/-- If some position is above the computed sum of all weights, `systematic_resample` raises `IndexError`. -/
theorem systematicD_error {A : Arith} (hA : IsDouble A) {w : List ℝ} (h : NearProbs A w) {size i : ℕ} {u : ℝ} (hi : i < size)
    (hp : cumD A w w.length < posD A size u i) : systematicResampleD A size (w.map fin) u = .error .indexError := by
  have hl : 0 < w.length := List.length_pos_iff.mpr h.some
  set ps := (List.range size).map (posD A size u) with hps
  have hsort : ps.Pairwise (· ≤ ·) := by
    rw [hps, List.pairwise_map]
    exact List.Pairwise.imp (fun hab => posD_mono hA size u (le_of_lt hab)) List.pairwise_lt_range
  have hrun : systematicResampleD A size (w.map fin) u = sysLoopD A (w.map fin) (ps.map fin) 0 (fin (cumD A w (0 + 1))) := by
    unfold systematicResampleD
    simp only [sysWeightsD_near hA h, sysPositionsD_eq]
    rw [List.getElem?_map, List.getElem?_eq_getElem hl]
    simp only [Option.map_some]
    rw [cumD_succ w hl, cumD_zero, zero_add, h.double _ (List.getElem_mem hl)]
  rw [hrun]
  rcases sysLoopD_spec (A := A) w ps hsort 0 hl (fun _ _ i hi => by omega) with ⟨l, -, a2⟩ | ⟨a1, -⟩
  · exfalso
    obtain ⟨e, f⟩ := List.forall₂_iff_get.mp a2
    have hlen : ps.length = size := by rw [hps, List.length_map, List.length_range]
    have hfi := f i (by omega) (by omega)
    have h1 : ps.get ⟨i, by omega⟩ = posD A size u i := by simp [hps]
    rw [h1] at hfi
    have := cumD_mono hA h.nonneg (show l.get ⟨i, by omega⟩ + 1 ≤ w.length from hfi.1) le_rfl
    linarith [hfi.2.1]
  · exact a1

/-- one sixth in double precision -/
noncomputable def sixth : ℝ := 6004799503160661 * 2⁻¹ ^ 55

theorem sixth_eq : round53 (1 / 6) = sixth := by
  rw [round53_of (-3) 6004799503160661 (by norm_num) (by norm_num) (by norm_num) (by norm_num)]
  unfold sixth; norm_num

theorem sixths_sum : cumD demoArith (List.replicate 6 sixth) 6 = 1 - 2⁻¹ ^ 53 := by
  have c1 : round53 (0 + sixth) = sixth := by rw [zero_add, ← sixth_eq, round53_idem]
  have c2 : round53 (sixth + sixth) = 2 * sixth := by
    rw [round53_of (-2) 6004799503160661] <;> norm_num [sixth]
  have c3 : round53 (2 * sixth + sixth) = 1 / 2 := by
    rw [round53_of (-2) 9007199254740992] <;> norm_num [sixth]
  have c4 : round53 (1 / 2 + sixth) = 6004799503160661 * 2⁻¹ ^ 53 := by
    rw [round53_of (-1) 6004799503160661] <;> norm_num [sixth]
  have c5 : round53 (6004799503160661 * 2⁻¹ ^ 53 + sixth) = 7505999378950826 * 2⁻¹ ^ 53 := by
    rw [round53_of (-1) 7505999378950826] <;> norm_num [sixth]
  have c6 : round53 (7505999378950826 * 2⁻¹ ^ 53 + sixth) = 1 - 2⁻¹ ^ 53 := by
    rw [round53_of (-1) 9007199254740991] <;> norm_num [sixth]
  show List.foldl (fun c x => round53 (c + x)) 0 [sixth, sixth, sixth, sixth, sixth, sixth] = _
  simp only [List.foldl_cons, List.foldl_nil]
  rw [c1, c2, c3, c4, c5, c6]

theorem sixths_near : NearProbs demoArith (List.replicate 6 sixth) where
  double := by
    intro x hx
    rw [List.eq_of_mem_replicate hx, ← sixth_eq]
    exact round53_idem _
  nonneg := by
    intro x hx
    rw [List.eq_of_mem_replicate hx]
    unfold sixth; positivity
  sum := by
    rw [List.sum_replicate, List.length_replicate, nsmul_eq_mul]
    unfold sixth
    rw [abs_le]; constructor <;> norm_num
  few := by simp
  some := by simp

/-- Six equal weights are normalised to one sixth each. -/
theorem sixths_normalize : normalizeD demoArith (List.replicate 6 (fin 1)) = (List.replicate 6 sixth).map fin := by
  have e1 : round53 (1 + 1) = 2 := by have := round53_nat 2 (by norm_num); norm_num at this ⊢; exact this
  have e2 : round53 (2 + 1) = 3 := by have := round53_nat 3 (by norm_num); norm_num at this ⊢; exact this
  have e3 : round53 (3 + 1) = 4 := by have := round53_nat 4 (by norm_num); norm_num at this ⊢; exact this
  have e4 : round53 (4 + 1) = 5 := by have := round53_nat 5 (by norm_num); norm_num at this ⊢; exact this
  have e5 : round53 (5 + 1) = 6 := by have := round53_nat 6 (by norm_num); norm_num at this ⊢; exact this
  have hs : demoArith.sum (List.replicate 6 (fin 1)) = fin 6 := by
    have : List.replicate 6 (fin 1) = (List.replicate 6 (1 : ℝ)).map fin := by simp
    rw [this, sumD_fin]
    show fin (List.foldl (fun c y => round53 (c + y)) 1 [1, 1, 1, 1, 1]) = _
    simp only [List.foldl_cons, List.foldl_nil]
    rw [e1, e2, e3, e4, e5]
  unfold normalizeD
  simp only [hs, List.map_replicate]
  rw [fin_div _ _ (by norm_num)]
  show List.replicate 6 (fin (round53 (1 / 6))) = _
  rw [sixth_eq]

/-- **C124 (refuted part).** Six particles of equal weight: the computed weights are one sixth each, their computed sum is the largest double
below 1, and for the largest value of `np.random.random()` the last position rounds to 1: `systematic_resample` raises `IndexError`. -/
theorem C124_index_error : systematicResampleD demoArith 6 (normalizeD demoArith (List.replicate 6 (fin 1))) (1 - 2⁻¹ ^ 53) = .error .indexError := by
  rw [sixths_normalize]
  refine systematicD_error demo_double sixths_near (i := 5) (by norm_num) ?_
  rw [List.length_replicate, sixths_sum]
  have h6 : round53 (1 - 2⁻¹ ^ 53 + ((5 : ℕ) : ℝ)) = 6 := by
    rw [round53_of 2 6755399441055744] <;> norm_num
  have h1 : round53 1 = 1 := by exact_mod_cast round53_nat 1 (by norm_num)
  show 1 - 2⁻¹ ^ 53 < round53 (round53 (1 - 2⁻¹ ^ 53 + ((5 : ℕ) : ℝ)) / ((6 : ℕ) : ℝ))
  rw [h6, show (6 : ℝ) / ((6 : ℕ) : ℝ) = 1 by norm_num, h1]
  norm_num

/-- The hypotheses of C124: these six weights and a draw of one half. -/
example : ∃ l, systematicResampleD demoArith 6 ((List.replicate 6 sixth).map fin) (1 / 2) = .ok l ∧ l.length = 6 := by
  rcases C124_systematic_partial demo_double _ sixths_near 6 (1 / 2) (by norm_num) (by norm_num) with ⟨l, h1, h2, -⟩ | ⟨-, h⟩
  · exact ⟨l, h1, h2⟩
  · rw [List.length_replicate] at h
    norm_num at h

example : ∃ l, multinomialResampleD demoArith ((List.replicate 6 sixth).map fin) [0, 1 / 2] = .ok l ∧ l.length = 2 := by
  obtain ⟨D, -, -, -, h⟩ := C124_choice demo_double _ sixths_near
  obtain ⟨l, h1, h2⟩ := h [0, 1 / 2] (by intro u hu; simp at hu; rcases hu with rfl | rfl <;> norm_num)
  exact ⟨l, h1, h2.length_eq.symm⟩

end Poco
