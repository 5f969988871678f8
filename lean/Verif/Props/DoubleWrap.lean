import Verif.Props.DoubleScalerDemo

/-! # C129: periodic and reflective boundary conditions in double precision -/

namespace Poco
open F Spec

variable {A : ArithErf}

/-- What is assumed of the numbers: doubles, and the distance to be wrapped is at most `2⁴⁷` widths. -/
structure Spec.Wrappable (A : ArithErf) (lo hi x : ℝ) : Prop where
  lo_double : A.rnd lo = lo
  hi_double : A.rnd hi = hi
  lt : lo < hi
  wide : 2⁻¹ ^ 900 ≤ hi - lo
  near : |x| + |lo| + |hi| ≤ 2 ^ 47 * (hi - lo)

/-- One step of wrapping, `a + y - b`, for numbers up to `2W`. -/
theorem wrapD_step (hA : IsDoubleErf A) {a b y W : ℝ} (ha : |a| ≤ W) (hb : |b| ≤ W) (hy : |y| ≤ 2 * W) (hW : 2⁻¹ ^ 900 ≤ W) :
    |A.rnd (A.rnd (a + y) - b) - (y + (a - b))| ≤ 2⁻¹ ^ 50 * W := by
  have hd := hA.logs.double
  have hu := uu_pos
  have heta0 := eta_pos
  have hus : uu ≤ 1 / 1000 := by unfold uu; norm_num
  have heta : eta ≤ uu * W / 8 := by
    have h1 : eta ≤ 2⁻¹ ^ 56 * 2⁻¹ ^ 900 := by rw [← pow_add]; exact eta_le _ (by norm_num)
    have h2 : (2⁻¹ : ℝ) ^ 56 * 2⁻¹ ^ 900 ≤ 2⁻¹ ^ 56 * W := mul_le_mul_of_nonneg_left hW (by positivity)
    have h3 : (2⁻¹ : ℝ) ^ 56 * W = uu * W / 8 := by unfold uu; ring
    exact (h1.trans h2).trans h3.le
  clear hW
  have e1 := hd.err (a + y)
  have b1 : |a + y| ≤ 3 * W := (abs_add_le a y).trans (by linarith)
  have hW0 : 0 ≤ W := (abs_nonneg a).trans ha
  have c1 : uu * |a + y| ≤ uu * (3 * W) := mul_le_mul_of_nonneg_left b1 hu.le
  have d1 : uu * W ≤ 1 / 1000 * W := mul_le_mul_of_nonneg_right hus hW0
  have e2 := hd.err (A.rnd (a + y) - b)
  have b2 : |A.rnd (a + y) - b| ≤ 4.1 * W := by
    have h1 := abs_sub (A.rnd (a + y)) b
    have h2 := abs_add_le (a + y) (A.rnd (a + y) - (a + y))
    rw [add_sub_cancel] at h2
    linarith
  have c2 : uu * |A.rnd (a + y) - b| ≤ uu * (4.1 * W) := mul_le_mul_of_nonneg_left b2 hu.le
  have h50 : (2⁻¹ : ℝ) ^ 50 = 8 * uu := by unfold uu; norm_num
  have h0 : 0 ≤ uu * W := by positivity
  rw [h50]
  have h3 := abs_add_le (A.rnd (A.rnd (a + y) - b) - (A.rnd (a + y) - b)) (A.rnd (a + y) - (a + y))
  rw [show A.rnd (A.rnd (a + y) - b) - (A.rnd (a + y) - b) + (A.rnd (a + y) - (a + y)) = A.rnd (A.rnd (a + y) - b) - (y + (a - b)) by ring] at h3
  linarith

/-- The first loop: subtracting the width. -/
theorem wrapD_down (hA : IsDoubleErf A) {lo hi W : ℝ} (hl : |lo| ≤ W) (hh : |hi| ≤ W) (hW : 2⁻¹ ^ 900 ≤ W) (hlt : lo < hi)
    (hs : 2⁻¹ ^ 50 * W ≤ (hi - lo) / 8) (hwW : hi - lo ≤ W) : ∀ (N : ℕ) (x : ℝ), |x| ≤ 2 * W → x ≤ hi + N * ((hi - lo) / 2) →
    ∃ y, ∃ k : ℕ, whileFuel (fun x => x > fin hi) (fun x => A.round (A.round (fin lo + x) - fin hi)) N (fin x) = some (fin y) ∧ y ≤ hi ∧ |y| ≤ 2 * W ∧
      (k = 0 ∧ y = x ∨ lo - (hi - lo) / 8 ≤ y) ∧ |y - (x - k * (hi - lo))| ≤ k * (2⁻¹ ^ 50 * W) := by
  intro N
  induction N with
  | zero =>
    intro x hx hN
    refine ⟨x, 0, ?_, by simpa using hN, hx, Or.inl ⟨rfl, rfl⟩, by simp⟩
    unfold whileFuel
    rw [if_neg]
    show ¬ hi < x
    simp at hN
    linarith
  | succ N ih =>
    intro x hx hN
    unfold whileFuel
    by_cases hc : hi < x
    · rw [if_pos (show fin x > fin hi from hc)]
      have hst := wrapD_step hA hl hh hx hW
      have e1 := abs_le.mp hst
      show ∃ y, ∃ k : ℕ, whileFuel (fun x => x > fin hi) (fun x => A.round (A.round (fin lo + x) - fin hi)) N (fin (A.rnd (A.rnd (lo + x) - hi))) = some (fin y) ∧ _
      set x' := A.rnd (A.rnd (lo + x) - hi) with hx'
      have h2 : |x'| ≤ 2 * W := by
        have := abs_le.mp hx
        have := abs_le.mp hl
        rw [abs_le]; constructor <;> linarith
      obtain ⟨y, k, y1, y2, y3, y4, y5⟩ := ih x' h2 (by push_cast at hN; linarith)
      refine ⟨y, k + 1, y1, y2, y3, Or.inr ?_, ?_⟩
      · rcases y4 with ⟨-, rfl⟩ | y4
        · linarith
        · exact y4
      · push_cast
        have e2 := abs_le.mp y5
        rw [abs_le]
        constructor <;> linarith
    · rw [if_neg (show ¬ fin x > fin hi from hc)]
      exact ⟨x, 0, rfl, not_lt.mp hc, hx, Or.inl ⟨rfl, rfl⟩, by simp⟩

/-- The second loop: adding the width. -/
theorem wrapD_up (hA : IsDoubleErf A) {lo hi W : ℝ} (hl : |lo| ≤ W) (hh : |hi| ≤ W) (hW : 2⁻¹ ^ 900 ≤ W) (hlt : lo < hi)
    (hs : 2⁻¹ ^ 50 * W ≤ (hi - lo) / 8) (hwW : hi - lo ≤ W) : ∀ (N : ℕ) (x : ℝ), |x| ≤ 2 * W → x ≤ hi + 2⁻¹ ^ 50 * W → lo - N * ((hi - lo) / 2) ≤ x →
    ∃ y, ∃ k : ℕ, whileFuel (fun x => x < fin lo) (fun x => A.round (A.round (fin hi + x) - fin lo)) N (fin x) = some (fin y) ∧ lo ≤ y ∧
      y ≤ hi + 2⁻¹ ^ 50 * W ∧ (lo ≤ x → y = x) ∧ |y - (x + k * (hi - lo))| ≤ k * (2⁻¹ ^ 50 * W) := by
  intro N
  induction N with
  | zero =>
    intro x hx hU hN
    have hN' : lo ≤ x := by simpa using hN
    refine ⟨x, 0, ?_, hN', hU, fun _ => rfl, by simp⟩
    unfold whileFuel
    rw [if_neg (show ¬ fin x < fin lo from not_lt.mpr hN')]
  | succ N ih =>
    intro x hx hU hN
    unfold whileFuel
    by_cases hc : x < lo
    · rw [if_pos (show fin x < fin lo from hc)]
      have hst := wrapD_step hA hh hl hx hW
      have e1 := abs_le.mp hst
      show ∃ y, ∃ k : ℕ, whileFuel (fun x => x < fin lo) (fun x => A.round (A.round (fin hi + x) - fin lo)) N (fin (A.rnd (A.rnd (hi + x) - lo))) = some (fin y) ∧ _
      set x' := A.rnd (A.rnd (hi + x) - lo) with hx'
      have h2 : |x'| ≤ 2 * W := by
        have := abs_le.mp hx
        have := abs_le.mp hh
        rw [abs_le]; constructor <;> linarith
      obtain ⟨y, k, y1, y2, y3, -, y5⟩ := ih x' h2 (by linarith) (by push_cast at hN; linarith)
      refine ⟨y, k + 1, y1, y2, y3, fun h => by linarith, ?_⟩
      push_cast
      have e2 := abs_le.mp y5
      rw [abs_le]
      constructor <;> linarith
    · rw [if_neg (show ¬ fin x < fin lo from hc)]
      exact ⟨x, 0, rfl, not_lt.mp hc, hU, fun _ => rfl, by simp⟩

/-- **C129 (partial: positions up to `2⁴⁷` widths away; see `C129_never_returns`).** In double precision, periodic boundary conditions return: from some
number of rounds on the loops have ended, the result is in `[low, high]` up to `2⁻⁵⁰·W` above `high` (`W = |x| + |low| + |high|`), it is `x` itself
if `x` was inside, and it differs from `x` by a whole number of widths up to `2⁻⁵⁰·W` per round. -/
theorem C129_periodic_partial (hA : IsDoubleErf A) {lo hi x : ℝ} (h : Wrappable A lo hi x) :
    ∃ N y, ∃ k m : ℕ, (∀ fuel ≥ N, periodicEntryD A fuel (fin lo) (fin hi) (fin x) = some (fin y)) ∧ lo ≤ y ∧
      y ≤ hi + 2⁻¹ ^ 50 * (|x| + |lo| + |hi|) ∧ (lo ≤ x → x ≤ hi → y = x) ∧
      |y - (x + (m - k) * (hi - lo))| ≤ (k + m) * (2⁻¹ ^ 50 * (|x| + |lo| + |hi|)) := by
  obtain ⟨h1, h2, h3, h4, h5⟩ := h
  set W := |x| + |lo| + |hi| with hW
  have hw0 : 0 < hi - lo := by linarith
  have a1 := abs_nonneg x
  have a2 := abs_nonneg lo
  have a3 := abs_nonneg hi
  have hwW : hi - lo ≤ W := by rw [hW]; linarith [le_abs_self hi, neg_abs_le lo]
  have hW900 : 2⁻¹ ^ 900 ≤ W := h4.trans hwW
  clear h4
  have hs : 2⁻¹ ^ 50 * W ≤ (hi - lo) / 8 := by
    have : (2⁻¹ : ℝ) ^ 50 * W ≤ 2⁻¹ ^ 50 * (2 ^ 47 * (hi - lo)) := mul_le_mul_of_nonneg_left h5 (by positivity)
    have e : (2⁻¹ : ℝ) ^ 50 * (2 ^ 47 * (hi - lo)) = (hi - lo) / 8 := by ring
    linarith
  have hW0 : 0 ≤ W := by positivity
  have hp50 : 0 ≤ 2⁻¹ ^ 50 * W := mul_nonneg (by norm_num) hW0
  obtain ⟨N, hN⟩ : ∃ N : ℕ, 4 * W ≤ N * ((hi - lo) / 2) := by
    obtain ⟨N, hN⟩ := exists_nat_ge (4 * W / ((hi - lo) / 2))
    exact ⟨N, by rwa [div_le_iff₀ (by linarith)] at hN⟩
  have hmono : ∀ fuel ≥ N, 4 * W ≤ fuel * ((hi - lo) / 2) := by
    intro fuel hf
    refine hN.trans (mul_le_mul_of_nonneg_right ?_ (by linarith))
    exact_mod_cast hf
  have key : ∀ fuel ≥ N, ∃ y, ∃ k m : ℕ, periodicEntryD A fuel (fin lo) (fin hi) (fin x) = some (fin y) ∧ lo ≤ y ∧
      y ≤ hi + 2⁻¹ ^ 50 * W ∧ (lo ≤ x → x ≤ hi → y = x) ∧ |y - (x + (m - k) * (hi - lo))| ≤ (k + m) * (2⁻¹ ^ 50 * W) := by
    intro fuel hf
    have hm := hmono fuel hf
    obtain ⟨y, k, y1, y2, y3, y4, y5⟩ := wrapD_down hA (W := W) (by linarith) (by linarith) hW900 h3 hs hwW fuel x (by linarith)
      (by linarith [le_abs_self x, neg_abs_le hi])
    obtain ⟨z, m, z1, z2, z3, z4, z5⟩ := wrapD_up hA (W := W) (by linarith) (by linarith) hW900 h3 hs hwW fuel y y3
      (by clear hW900; linarith) (by have := (abs_le.mp y3).1; have := le_abs_self lo; clear hW900; linarith)
    refine ⟨z, k, m, ?_, z2, z3, ?_, ?_⟩
    · unfold periodicEntryD
      rw [y1]
      exact z1
    · intro b1 b2
      have hyx : y = x := by
        have hx0 : whileFuel (fun x => x > fin hi) (fun x => A.round (A.round (fin lo + x) - fin hi)) fuel (fin x) = some (fin x) := by
          cases fuel with
          | zero => unfold whileFuel; rw [if_neg (show ¬ fin x > fin hi from not_lt.mpr b2)]
          | succ n => unfold whileFuel; rw [if_neg (show ¬ fin x > fin hi from not_lt.mpr b2)]
        rw [hx0] at y1
        cases y1; rfl
      rw [z4 (by rw [hyx]; exact b1), hyx]
    · have e1 := abs_le.mp y5
      have e2 := abs_le.mp z5
      have e3 : x + ((m : ℝ) - k) * (hi - lo) = x + m * (hi - lo) - k * (hi - lo) := by ring
      have e4 : ((k : ℝ) + m) * (2⁻¹ ^ 50 * W) = k * (2⁻¹ ^ 50 * W) + m * (2⁻¹ ^ 50 * W) := by ring
      rw [e3, e4, abs_le]
      constructor <;> linarith
  obtain ⟨y, k, m, y1, y2, y3, y4, y5⟩ := key N le_rfl
  refine ⟨N, y, k, m, ?_, y2, y3, y4, y5⟩
  intro fuel hf
  have hstab : ∀ (c : F → Prop) [DecidablePred c] (b : F → F) (n : ℕ) (z r : F), whileFuel c b n z = some r → ∀ j, whileFuel c b (n + j) z = some r := by
    intro c _ b n
    induction n with
    | zero =>
      intro z r hz j
      unfold whileFuel at hz
      by_cases hc : c z
      · rw [if_pos hc] at hz; cases hz
      · rw [if_neg hc] at hz
        rw [Nat.zero_add]
        cases j with
        | zero => unfold whileFuel; rw [if_neg hc, hz]
        | succ j => unfold whileFuel; rw [if_neg hc, hz]
    | succ n ih =>
      intro z r hz j
      rw [Nat.succ_add]
      unfold whileFuel at hz ⊢
      by_cases hc : c z
      · rw [if_pos hc] at hz ⊢; exact ih _ _ hz j
      · rw [if_neg hc] at hz ⊢; exact hz
  obtain ⟨j, rfl⟩ := Nat.exists_eq_add_of_le hf
  unfold periodicEntryD at y1 ⊢
  obtain ⟨v, v1, v2⟩ := Option.bind_eq_some_iff.mp y1
  exact Option.bind_eq_some_iff.mpr ⟨v, hstab _ _ _ _ _ v1 j, hstab _ _ _ _ _ v2 j⟩

/-- **C129.** In double precision, reflective boundary conditions return after at most one reflection at each bound, wherever `x` is, with a number not
below `low`; a point inside stays where it is. -/
theorem C129_reflective (hA : IsDoubleErf A) {lo hi x : ℝ} (hlo : A.rnd lo = lo) (hhi : A.rnd hi = hi) (fuel : ℕ) (hf : 1 ≤ fuel) :
    ∃ y, reflectiveEntryD A fuel (fin lo) (fin hi) (fin x) = some (fin y) ∧ lo ≤ y ∧ (lo ≤ x → x ≤ hi → y = x) := by
  have hd := hA.logs.double
  obtain ⟨n, rfl⟩ := Nat.exists_eq_add_of_le' hf
  have stop : ∀ (c : F → Prop) [DecidablePred c] (b : F → F) (k : ℕ) (z : F), ¬ c z → whileFuel c b k z = some z := by
    intro c _ b k z hc
    cases k <;> (unfold whileFuel; rw [if_neg hc])
  have first : ∃ y, whileFuel (fun x => x > fin hi) (fun x => A.round (A.round (fin hi - x) + fin hi)) (n + 1) (fin x) = some (fin y) ∧ (x ≤ hi → y = x) := by
    by_cases hc : hi < x
    · refine ⟨A.rnd (A.rnd (hi - x) + hi), ?_, fun h => by linarith⟩
      unfold whileFuel
      rw [if_pos (show fin x > fin hi from hc), fin_sub]
      apply stop
      show ¬ hi < A.rnd (A.rnd (hi - x) + hi)
      have h1 : A.rnd (hi - x) ≤ 0 := by rw [← hd.zero]; exact hd.mono (by linarith)
      have h2 : A.rnd (A.rnd (hi - x) + hi) ≤ A.rnd hi := hd.mono (by linarith)
      rw [hhi] at h2
      exact not_lt.mpr h2
    · exact ⟨x, stop _ _ _ _ hc, fun _ => rfl⟩
  have second : ∀ y : ℝ, ∃ z, whileFuel (fun x => x < fin lo) (fun x => A.round (A.round (fin lo + fin lo) - x)) (n + 1) (fin y) = some (fin z) ∧ lo ≤ z ∧
      (lo ≤ y → z = y) := by
    intro y
    by_cases hc : y < lo
    · have h2 : lo ≤ A.rnd (A.rnd (lo + lo) - y) := by
        rw [hA.double_exact lo hlo]
        calc lo = A.rnd lo := hlo.symm
          _ ≤ _ := hd.mono (by linarith)
      refine ⟨A.rnd (A.rnd (lo + lo) - y), ?_, h2, fun h => by linarith⟩
      unfold whileFuel
      rw [if_pos (show fin y < fin lo from hc), fin_add]
      apply stop
      show ¬ A.rnd (A.rnd (lo + lo) - y) < lo
      exact not_lt.mpr h2
    · exact ⟨y, stop _ _ _ _ hc, not_lt.mp hc, fun _ => rfl⟩
  obtain ⟨y, y1, y2⟩ := first
  obtain ⟨z, z1, z2, z3⟩ := second y
  refine ⟨z, ?_, z2, fun h1 h2 => ?_⟩
  · unfold reflectiveEntryD
    rw [y1]
    exact z1
  · have hyx := y2 h2
    rw [z3 (by rw [hyx]; exact h1), hyx]

/-- **C129 fails for distant points.** On the interval `[0, 1]` with periodic boundary conditions the loop never ends for `x = 2⁶⁰`: taking away the
width does not change the number. -/
theorem C129_never_returns : ∃ A : ArithErf, IsDoubleErf A ∧ ∃ lo hi x : ℝ, A.rnd lo = lo ∧ A.rnd hi = hi ∧ A.rnd x = x ∧ lo < hi ∧
    ∀ fuel, periodicEntryD A fuel (fin lo) (fin hi) (fin x) = none := by
  have h60 : round53 ((2 : ℝ) ^ 60) = 2 ^ 60 := by
    have := round53_scale 1 60
    rw [one_mul, round53_one, one_mul] at this
    exact_mod_cast this
  refine ⟨demoErf, demo_doubleErf, 0, 1, 2 ^ 60, round53_zero, round53_one, h60, by norm_num, ?_⟩
  have hstep : demoErf.round (demoErf.round (fin 0 + fin (2 ^ 60)) - fin 1) = fin (2 ^ 60) := by
    rw [fin_add]
    show fin (round53 (round53 (0 + 2 ^ 60) - 1)) = _
    rw [zero_add, h60]
    congr 1
    rw [round53_of 59 (2 ^ 53)] <;> norm_num
  intro fuel
  have hnone : whileFuel (fun x => x > fin 1) (fun x => demoErf.round (demoErf.round (fin 0 + x) - fin 1)) fuel (fin (2 ^ 60)) = none := by
    have hc : (fin (2 ^ 60) : F) > fin 1 := by show (1 : ℝ) < 2 ^ 60; norm_num
    induction fuel with
    | zero => unfold whileFuel; rw [if_pos hc]
    | succ n ih => unfold whileFuel; rw [if_pos hc, hstep]; exact ih
  unfold periodicEntryD
  rw [hnone]
  rfl

/-- The hypotheses of `C129_periodic_partial` are met: the angle 1000 on the interval `[0, 6]`. -/
example : Wrappable demoErf 0 6 1000 where
  lo_double := round53_zero
  hi_double := by show round53 6 = 6; exact_mod_cast round53_nat 6 (by norm_num)
  lt := by norm_num
  wide := by
    have : (2⁻¹ : ℝ) ^ 900 ≤ 1 := pow_le_one₀ (by norm_num) (by norm_num)
    linarith
  near := by norm_num

end Poco
