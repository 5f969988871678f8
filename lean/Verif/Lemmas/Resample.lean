import Verif.Lemmas.Weights
import Verif.Spec.Resample
import Mathlib.Algebra.Order.Floor.Semiring
import Mathlib.Algebra.Order.Archimedean.Real.Basic
import Mathlib.Tactic.Positivity
import Mathlib.Tactic.FieldSimp
import Mathlib.Tactic.Linarith

/-! Lemmas for the resampling functions. -/

set_option linter.unusedSimpArgs false

namespace Poco
open F Spec Classical

theorem cum_zero (w : List ℝ) : cum w 0 = 0 := by simp [cum]

theorem cum_succ (w : List ℝ) (j : ℕ) (h : j < w.length) : cum w (j + 1) = cum w j + w[j] := by
  unfold cum
  rw [List.take_succ_eq_append_getElem h, List.sum_append]; simp

theorem cum_length (w : List ℝ) : cum w w.length = w.sum := by simp [cum]

theorem cum_mono {w : List ℝ} (h : ∀ x ∈ w, 0 ≤ x) {i j : ℕ} (hij : i ≤ j) : cum w i ≤ cum w j := by
  induction j with
  | zero => have : i = 0 := by omega
            subst this; exact le_refl _
  | succ j ih =>
    rcases Nat.lt_or_ge i (j + 1) with hlt | hge
    · refine (ih (by omega)).trans ?_
      by_cases hj : j < w.length
      · rw [cum_succ w j hj]
        have := h w[j] (List.getElem_mem hj)
        linarith
      · unfold cum; rw [List.take_of_length_le (by omega), List.take_of_length_le (by omega)]
    · have : i = j + 1 := by omega
      subst this; exact le_refl _

theorem cum_nonneg {w : List ℝ} (h : ∀ x ∈ w, 0 ≤ x) (j : ℕ) : 0 ≤ cum w j := by
  have := cum_mono h (Nat.zero_le j)
  rwa [cum_zero] at this

theorem cum_le_sum {w : List ℝ} (h : ∀ x ∈ w, 0 ≤ x) (j : ℕ) : cum w j ≤ w.sum := by
  rcases Nat.le_total j w.length with hj | hj
  · rw [← cum_length]; exact cum_mono h hj
  · unfold cum; rw [List.take_of_length_le hj]

theorem Spec.FallsOn.unique {w : List ℝ} {p : ℝ} {i j : ℕ} (hi : FallsOn w p i) (hj : FallsOn w p j) : i = j := by
  rcases Nat.lt_trichotomy i j with h | h | h
  · exact absurd (hj.2.2 i h) (not_lt.mpr hi.2.1)
  · exact h
  · exact absurd (hi.2.2 j h) (not_lt.mpr hj.2.1)

theorem Spec.FallsOn.mono {w : List ℝ} {p q : ℝ} {i j : ℕ} (hi : FallsOn w p i) (hj : FallsOn w q j) (hpq : p ≤ q) :
    i ≤ j := by
  by_contra hc
  have := hi.2.2 j (by omega)
  have := hj.2.1
  linarith

/-- For a positive point and non-negative weights, `FallsOn` is membership in a half-open interval. -/
theorem fallsOn_iff {w : List ℝ} (h : ∀ x ∈ w, 0 ≤ x) {p : ℝ} (hp : 0 < p) (j : ℕ) :
    FallsOn w p j ↔ j < w.length ∧ cum w j < p ∧ p ≤ cum w (j + 1) := by
  constructor
  · rintro ⟨h1, h2, h3⟩
    refine ⟨h1, ?_, h2⟩
    cases j with
    | zero => rw [cum_zero]; exact hp
    | succ j => exact h3 j (by omega)
  · rintro ⟨h1, h2, h3⟩
    exact ⟨h1, h3, fun k hk => lt_of_le_of_lt (cum_mono h (by omega)) h2⟩

/-! ### the systematic loop -/

theorem sysAdvance_spec (v : List ℝ) (p : ℝ) (n : ℕ) : ∀ j, j < v.length → v.length - j ≤ n →
    (∃ j', sysAdvance (v.map fin) (fin p) j (fin (cum v (j + 1))) = .ok (j', fin (cum v (j' + 1))) ∧
      j ≤ j' ∧ j' < v.length ∧ p ≤ cum v (j' + 1) ∧ ∀ k, j ≤ k → k < j' → cum v (k + 1) < p) ∨
    (sysAdvance (v.map fin) (fin p) j (fin (cum v (j + 1))) = .error .indexError ∧
      ∀ k, j ≤ k → k < v.length → cum v (k + 1) < p) := by
  induction n with
  | zero => intro j h1 h2; omega
  | succ n ih =>
    intro j h1 h2
    rw [sysAdvance]
    by_cases hp : cum v (j + 1) < p
    · rw [if_pos (show fin p > fin (cum v (j + 1)) from hp)]
      by_cases hj : j + 1 < v.length
      · have hget : (v.map fin)[j + 1]? = some (fin v[j + 1]) := by
          rw [List.getElem?_map, List.getElem?_eq_getElem hj]; rfl
        split
        · rename_i heq; rw [hget] at heq; cases heq
        · rename_i x heq
          rw [hget] at heq
          simp only [Option.some.injEq] at heq
          subst heq
          rw [fin_add, ← cum_succ v (j + 1) hj]
          rcases ih (j + 1) hj (by omega) with ⟨j', e, a, b, c, d⟩ | ⟨e, d⟩
          · left
            refine ⟨j', e, by omega, b, c, fun k hk1 hk2 => ?_⟩
            rcases Nat.eq_or_lt_of_le hk1 with rfl | hk
            · exact hp
            · exact d k hk hk2
          · right
            refine ⟨e, fun k hk1 hk2 => ?_⟩
            rcases Nat.eq_or_lt_of_le hk1 with rfl | hk
            · exact hp
            · exact d k hk hk2
      · have hget : (v.map fin)[j + 1]? = none := by
          rw [List.getElem?_eq_none]; simp; omega
        right
        split
        · refine ⟨rfl, fun k hk1 hk2 => ?_⟩
          have : k = j := by omega
          subst this; exact hp
        · rename_i heq; rw [hget] at heq; cases heq
    · rw [if_neg (show ¬ fin p > fin (cum v (j + 1)) from hp)]
      left
      exact ⟨j, rfl, le_refl _, h1, not_lt.mp hp, fun k hk1 hk2 => by omega⟩

theorem sysLoop_spec (v : List ℝ) : ∀ (ps : List ℝ) (j : ℕ), j < v.length → ps.Pairwise (· ≤ ·) →
    (∀ p ∈ ps, ∀ k < j, cum v (k + 1) < p) →
    (∃ l, sysLoop (v.map fin) (ps.map fin) j (fin (cum v (j + 1))) = .ok l ∧ List.Forall₂ (FallsOn v) ps l) ∨
    (sysLoop (v.map fin) (ps.map fin) j (fin (cum v (j + 1))) = .error .indexError ∧
      ∃ p ∈ ps, ∀ k < v.length, cum v (k + 1) < p) := by
  intro ps
  induction ps with
  | nil => intro j hj _ _; left; exact ⟨[], rfl, List.Forall₂.nil⟩
  | cons p ps ih =>
    intro j hj hs hlow
    have hp := hlow p (by simp)
    rw [List.map_cons, sysLoop]
    rcases sysAdvance_spec v p _ j hj (le_refl _) with ⟨j', e, a, b, c, d⟩ | ⟨e, d⟩
    · rw [e]
      have hall : ∀ k < j', cum v (k + 1) < p := by
        intro k hk
        rcases Nat.lt_or_ge k j with h | h
        · exact hp k h
        · exact d k h hk
      simp only
      have hs' := List.pairwise_cons.mp hs
      rcases ih j' b hs'.2 (fun q hq k hk => lt_of_lt_of_le (hall k hk) (hs'.1 q hq)) with ⟨l, e2, f⟩ | ⟨e2, q, hq, f⟩
      · left
        rw [e2]
        exact ⟨j' :: l, rfl, List.Forall₂.cons ⟨b, c, hall⟩ f⟩
      · right
        rw [e2]
        exact ⟨rfl, q, by simp [hq], f⟩
    · right
      rw [e]
      refine ⟨rfl, p, by simp, fun k hk => ?_⟩
      rcases Nat.lt_or_ge k j with h | h
      · exact hp k h
      · exact d k h hk

/-- The positions as reals. -/
noncomputable def posReal (size : ℕ) (u : ℝ) : List ℝ := (List.range size).map fun i : ℕ => (u + i) / size

theorem sysPositions_fin (size : ℕ) (u : ℝ) : sysPositions size u = (posReal size u).map fin := by
  unfold sysPositions posReal
  rw [List.map_map]
  apply List.map_congr_left
  intro i hi
  have : (size : ℝ) ≠ 0 := by
    have := List.mem_range.mp hi
    exact_mod_cast (by omega : size ≠ 0)
  simp only [F.ofNat, fin_add, Function.comp]
  exact fin_div _ _ this

theorem posReal_sorted (size : ℕ) (u : ℝ) : (posReal size u).Pairwise (· ≤ ·) := by
  unfold posReal
  rw [List.pairwise_map]
  apply List.Pairwise.imp _ (List.pairwise_lt_range (n := size))
  intro a b hab
  have : (a : ℝ) ≤ b := by exact_mod_cast hab.le
  have h0 : (0 : ℝ) ≤ size := by positivity
  exact div_le_div_of_nonneg_right (by linarith) h0

theorem posReal_lt_one {size : ℕ} {u p : ℝ} (hu : u < 1) (hp : p ∈ posReal size u) : p < 1 := by
  obtain ⟨i, hi, rfl⟩ := List.mem_map.mp hp
  have hi := List.mem_range.mp hi
  have : (i : ℝ) + 1 ≤ size := by exact_mod_cast hi
  have h0 : (0 : ℝ) < size := by
    have : (0 : ℝ) ≤ i := by positivity
    linarith
  rw [div_lt_one h0]; linarith

theorem posReal_pos {size : ℕ} {u p : ℝ} (hu : 0 < u) (hp : p ∈ posReal size u) : 0 < p := by
  obtain ⟨i, hi, rfl⟩ := List.mem_map.mp hp
  have hi := List.mem_range.mp hi
  have h0 : (0 : ℝ) < size := by exact_mod_cast (by omega : 0 < size)
  positivity

/-- What the function does once the weights `v` it uses are fixed. -/
theorem systematic_core (size : ℕ) (w : List F) (v : List ℝ) (hv : v ≠ []) (hw : sysWeights w = v.map fin) (u : ℝ) :
    (∃ l, systematicResample size w u = .ok l ∧ List.Forall₂ (FallsOn v) (posReal size u) l) ∨
    (systematicResample size w u = .error .indexError ∧
      ∃ p ∈ posReal size u, ∀ k < v.length, cum v (k + 1) < p) := by
  have hl : 0 < v.length := List.length_pos_iff.mpr hv
  have h0 : (v.map fin)[0]? = some (fin (cum v 1)) := by
    rw [List.getElem?_map, List.getElem?_eq_getElem hl, cum_succ v 0 hl, cum_zero]; simp
  have := sysLoop_spec v (posReal size u) 0 hl (posReal_sorted size u) (fun p _ k hk => by omega)
  unfold systematicResample
  simp only [hw, h0, sysPositions_fin]
  exact this

/-- Weights the function uses: unchanged when the sum is exactly one, normalised when it is off by more than the
tolerance; in both cases the normalised weights. -/
theorem sysWeights_fin (w : List ℝ) (hs : w.sum ≠ 0) (h : w.sum = 1 ∨ sqrtEps < |w.sum - 1|) :
    sysWeights (w.map fin) = (w.map (· / w.sum)).map fin := by
  unfold sysWeights
  rcases h with h | h
  · rw [if_neg]
    · rw [h]; simp
    · simp only [sum_fin, h, fin_sub, sub_self, abs_fin, abs_zero]
      show ¬ (sqrtEps < 0)
      unfold sqrtEps; exact not_lt.mpr (by positivity)
  · rw [if_pos, normalize_fin w hs]
    simpa using h

theorem sysWeights_near (w : List ℝ) (h : |w.sum - 1| ≤ sqrtEps) : sysWeights (w.map fin) = w.map fin := by
  unfold sysWeights
  rw [if_neg]
  simpa using h

theorem count_of_forall₂ (v : List ℝ) (j : ℕ) {ps : List ℝ} {l : List ℕ} (h : List.Forall₂ (FallsOn v) ps l) :
    l.count j = ps.countP fun p => decide (FallsOn v p j) := by
  induction h with
  | nil => simp
  | @cons p i ps l hpi _ ih =>
    rw [List.count_cons, List.countP_cons, ih]
    congr 1
    by_cases hij : i = j
    · subst hij; simp [hpi]
    · have : ¬ FallsOn v p j := fun hf => hij (hpi.unique hf)
      simp [hij, this]

/-! ### counting naturals below a real -/

/-- number of `i < n` with `i ≤ x` -/
noncomputable def cntLe (n : ℕ) (x : ℝ) : ℕ := (List.range n).countP fun i : ℕ => decide ((i : ℝ) ≤ x)

theorem countP_lt_range (n m : ℕ) : (List.range n).countP (fun i => decide (i < m)) = min n m := by
  induction n with
  | zero => simp
  | succ n ih =>
    rw [List.range_succ, List.countP_append, ih]
    by_cases h : n < m
    · simp [h]; omega
    · simp [h]; omega

theorem cntLe_neg (n : ℕ) {x : ℝ} (hx : x < 0) : cntLe n x = 0 := by
  unfold cntLe
  rw [List.countP_eq_zero]
  intro i _
  have : (0 : ℝ) ≤ i := by positivity
  simp only [decide_eq_true_eq, not_le]; linarith

theorem cntLe_nonneg (n : ℕ) {x : ℝ} (hx : 0 ≤ x) : cntLe n x = min n (⌊x⌋₊ + 1) := by
  unfold cntLe
  rw [← countP_lt_range]
  apply List.countP_congr
  intro i _
  simp only [decide_eq_true_eq]
  rw [Nat.lt_succ_iff, Nat.le_floor_iff hx]

theorem cntLe_bounds (n : ℕ) {x : ℝ} (h0 : -1 < x) (h1 : x < n) : x < cntLe n x ∧ (cntLe n x : ℝ) ≤ x + 1 := by
  rcases lt_or_ge x 0 with hx | hx
  · rw [cntLe_neg n hx]; simp; constructor <;> linarith
  · rw [cntLe_nonneg n hx]
    have : ⌊x⌋₊ + 1 ≤ n := by rw [Nat.succ_le_iff, Nat.floor_lt hx]; exact h1
    rw [min_eq_right this]
    have a := Nat.lt_floor_add_one x
    have b := Nat.floor_le hx
    push_cast; constructor <;> linarith

theorem cntLe_bounds' (n : ℕ) {x : ℝ} (h0 : -1 < x) (h1 : x ≤ n) : x ≤ cntLe n x ∧ (cntLe n x : ℝ) ≤ x + 1 := by
  rcases lt_or_eq_of_le h1 with h | h
  · exact ⟨(cntLe_bounds n h0 h).1.le, (cntLe_bounds n h0 h).2⟩
  · subst h
    rw [cntLe_nonneg n (by positivity)]
    simp

theorem countP_and (n : ℕ) {a b : ℝ} (hab : a ≤ b) :
    ((List.range n).countP (fun i : ℕ => decide (a < (i : ℝ) ∧ (i : ℝ) ≤ b)) : ℝ) = cntLe n b - cntLe n a := by
  have : (List.range n).countP (fun i : ℕ => decide (a < (i : ℝ) ∧ (i : ℝ) ≤ b)) + cntLe n a = cntLe n b := by
    unfold cntLe
    induction (List.range n) with
    | nil => simp
    | cons i l ih =>
      simp only [List.countP_cons]
      by_cases h1 : (i : ℝ) ≤ a
      · have h2 : (i : ℝ) ≤ b := h1.trans hab
        have h3 : ¬ (a < (i : ℝ)) := not_lt.mpr h1
        simp only [h1, h2, h3, and_self, and_true, and_false, false_and, decide_true, decide_false, if_true,
          Bool.false_eq_true, if_false]; omega
      · have h3 : a < (i : ℝ) := not_le.mp h1
        by_cases h2 : (i : ℝ) ≤ b
        · simp only [h1, h2, h3, and_self, and_true, and_false, false_and, decide_true, decide_false, if_true,
          Bool.false_eq_true, if_false]; omega
        · simp only [h1, h2, h3, and_self, and_true, and_false, false_and, decide_true, decide_false, if_true,
          Bool.false_eq_true, if_false]; omega
  rw [← this]; push_cast; ring

end Poco
