import Verif.Props.DoubleResample
import Verif.Props.DoubleDemo

/-! C156: the weights never leave the range of double precision. -/

namespace Poco.Spec

/-- Double precision, known only for results of absolute value at most `2^1000`.  What the machine returns for an exact result above that (a number, a
wrong number: nothing is assumed) must not matter. -/
structure IsDoubleInRange (A : Arith) : Prop where
  mono : ∀ x y, |x| ≤ 2 ^ 1000 → |y| ≤ 2 ^ 1000 → x ≤ y → A.rnd x ≤ A.rnd y
  idem : ∀ x, |x| ≤ 2 ^ 1000 → A.rnd (A.rnd x) = A.rnd x
  neg : ∀ x, |x| ≤ 2 ^ 1000 → A.rnd (-x) = -A.rnd x
  top : A.rnd (2 ^ 1000) = 2 ^ 1000
  nat : ∀ k : ℕ, k ≤ 2 ^ 53 → A.rnd k = k
  near : ∀ x, |x| ≤ 2 ^ 1000 → |A.rnd x - x| ≤ 2⁻¹ ^ 53 * |x| + 2⁻¹ ^ 1075
  exp_double : ∀ x ≤ 0, A.rnd (A.exp x) = A.exp x
  exp_zero : A.exp 0 = 1
  exp_range : ∀ x ≤ 0, 0 ≤ A.exp x ∧ A.exp x ≤ 1
  exp_near : ∀ x ≤ 0, |A.exp x - Real.exp x| ≤ 2⁻¹ ^ 52 * Real.exp x + 2⁻¹ ^ 1074
  total : ∀ l, Added A.rnd l (A.total l)
  kahan_near : ∀ l, (∀ x ∈ l, 0 ≤ x) → |A.kahan l - l.sum| ≤ l.length * 2⁻¹ ^ 52 * l.sum + 2⁻¹ ^ 1000
  pct_le : ∀ l, l ≠ [] → ∀ p, 0 ≤ p → p ≤ 100 → ∃ b ∈ l, A.pct l p ≤ b
  pct_zero : ∀ l, l ≠ [] → A.pct l 0 ∈ l ∧ ∀ x ∈ l, A.pct l 0 ≤ x

end Poco.Spec

namespace Poco
open F Spec

variable {A : Arith}

/-- The largest number considered. -/
@[irreducible] noncomputable def big : ℝ := 2 ^ 1000

theorem big_ge : (2 : ℝ) ^ 200 ≤ big := by unfold big; exact pow_le_pow_right₀ (by norm_num) (by norm_num)
theorem big_pos : 0 < big := lt_of_lt_of_le (by positivity) big_ge

theorem exists_added (r : ℝ → ℝ) (l : List ℝ) : ∃ s, Added r l s := by
  induction l with
  | nil => exact ⟨0, .nil⟩
  | cons x l ih =>
    by_cases hl : l = []
    · subst hl; exact ⟨x, .one x⟩
    · obtain ⟨s, hs⟩ := ih
      exact ⟨_, .add (l₁ := [x]) (by simp) hl (.one x) hs (by simp)⟩

open Classical in
/-- The same arithmetic without an upper end: results above the range are exact. -/
noncomputable def endless (A : Arith) : Arith where
  rnd x := if |x| ≤ big then A.rnd x else x
  exp x := if x ≤ 0 then A.exp x else 1
  total l := if Added (fun x => if |x| ≤ big then A.rnd x else x) l (A.total l) then A.total l else (exists_added (fun x => if |x| ≤ big then A.rnd x else x) l).choose
  pct := A.pct
  kahan := A.kahan

theorem endless_rnd {x : ℝ} (h : |x| ≤ big) : (endless A).rnd x = A.rnd x := if_pos h
theorem endless_out {x : ℝ} (h : ¬ |x| ≤ big) : (endless A).rnd x = x := if_neg h

theorem Spec.IsDoubleInRange.abs_le (h : IsDoubleInRange A) {x : ℝ} (hx : |x| ≤ big) : |A.rnd x| ≤ big := by
  have hb := big_pos
  have hbb : |big| ≤ big := by rw [abs_of_pos hb]
  have e : A.rnd big = big := by unfold big; exact h.top
  have hx' := _root_.abs_le.mp hx
  have m : ∀ y z, |y| ≤ big → |z| ≤ big → y ≤ z → A.rnd y ≤ A.rnd z := by unfold big; exact h.mono
  have n : A.rnd (-big) = -A.rnd big := h.neg big (by unfold big at hbb ⊢; exact hbb)
  rw [_root_.abs_le]
  constructor
  · rw [← e, ← n]; exact m _ _ (by rw [abs_neg]; exact hbb) hx hx'.1
  · rw [← e]; exact m _ _ hx hbb hx'.2

theorem Spec.IsDoubleInRange.double (h : IsDoubleInRange A) : IsDouble (endless A) := by
  have hb := big_pos
  have m : ∀ y z, |y| ≤ big → |z| ≤ big → y ≤ z → A.rnd y ≤ A.rnd z := by unfold big; exact h.mono
  have hsmall : ∀ x : ℝ, |x| ≤ 2 ^ 200 → |x| ≤ big := fun x hx => hx.trans big_ge
  constructor
  · intro x y hxy
    by_cases hx : |x| ≤ big <;> by_cases hy : |y| ≤ big
    · rw [endless_rnd hx, endless_rnd hy]; exact m _ _ hx hy hxy
    · rw [endless_rnd hx, endless_out hy]
      have h1 := _root_.abs_le.mp (h.abs_le hx)
      have h2 := _root_.abs_le.mp hx
      rcases lt_abs.mp (not_le.mp hy) with h3 | h3 <;> linarith
    · rw [endless_out hx, endless_rnd hy]
      have h1 := _root_.abs_le.mp (h.abs_le hy)
      have h2 := _root_.abs_le.mp hy
      rcases lt_abs.mp (not_le.mp hx) with h3 | h3 <;> linarith
    · rw [endless_out hx, endless_out hy]; exact hxy
  · intro x
    by_cases hx : |x| ≤ big
    · rw [endless_rnd hx, endless_rnd (h.abs_le hx)]
      exact h.idem x (by unfold big at hx; exact hx)
    · rw [endless_out hx, endless_out hx]
  · intro x
    by_cases hx : |x| ≤ big
    · rw [endless_rnd hx, endless_rnd (by rw [abs_neg]; exact hx)]
      exact h.neg x (by unfold big at hx; exact hx)
    · rw [endless_out hx, endless_out (by rw [abs_neg]; exact hx)]
  · intro k hk
    rw [endless_rnd]
    · exact h.nat k hk
    · apply hsmall
      rw [abs_of_nonneg (Nat.cast_nonneg k)]
      have : (k : ℝ) ≤ 2 ^ 53 := by exact_mod_cast hk
      exact this.trans (by norm_num)
  · intro x
    by_cases hx : |x| ≤ big
    · rw [endless_rnd hx]; exact h.near x (by unfold big at hx; exact hx)
    · rw [endless_out hx, sub_self, abs_zero]; positivity
  · intro x
    unfold Poco.endless
    dsimp only
    by_cases hx : x ≤ 0
    · rw [if_pos hx, if_pos]
      · exact h.exp_double x hx
      · obtain ⟨e1, e2⟩ := h.exp_range x hx
        apply hsmall
        rw [abs_of_nonneg e1]
        exact e2.trans (by norm_num)
    · rw [if_neg hx, if_pos (hsmall _ (by norm_num))]
      simpa using h.nat 1 (by norm_num)
  · unfold Poco.endless
    simpa using h.exp_zero
  · intro x hx
    unfold Poco.endless
    dsimp only
    rw [if_pos hx]; exact h.exp_range x hx
  · intro x hx
    unfold Poco.endless
    dsimp only
    rw [if_pos hx]; exact h.exp_near x hx
  · intro l
    unfold Poco.endless
    dsimp only
    split_ifs with hc
    · exact hc
    · exact (exists_added (fun x => if |x| ≤ big then A.rnd x else x) l).choose_spec
  · exact h.kahan_near
  · exact h.pct_le
  · exact h.pct_zero

/-- Additions of numbers in `[0, 1]` stay in the range. -/
theorem Spec.IsDoubleInRange.added (h : IsDoubleInRange A) {l : List ℝ} {s : ℝ} (hs : Added A.rnd l s) :
    (∀ x ∈ l, 0 ≤ x ∧ x ≤ 1) → l.length ≤ 2 ^ 53 → Added (endless A).rnd l s ∧ 0 ≤ s ∧ s ≤ l.length := by
  have hu := h.double
  induction hs with
  | nil => intro _ _; exact ⟨.nil, by simp⟩
  | one x => intro h _; exact ⟨.one x, by simpa using h x (by simp)⟩
  | @add l l₁ l₂ a b h1 h2 ha hb hp iha ihb =>
    intro hl hN
    have hlen : l.length = l₁.length + l₂.length := by rw [hp.length_eq, List.length_append]
    obtain ⟨a1, a2, a3⟩ := iha (fun x hx => hl x (hp.mem_iff.mpr (List.mem_append_left _ hx))) (by omega)
    obtain ⟨b1, b2, b3⟩ := ihb (fun x hx => hl x (hp.mem_iff.mpr (List.mem_append_right _ hx))) (by omega)
    have hle : a + b ≤ l.length := by rw [hlen]; push_cast; linarith
    have hin : |a + b| ≤ big := by
      rw [abs_of_nonneg (by linarith)]
      have : (l.length : ℝ) ≤ 2 ^ 53 := by exact_mod_cast hN
      exact (hle.trans this).trans ((by norm_num : (2 : ℝ) ^ 53 ≤ 2 ^ 200).trans big_ge)
    have hr : A.rnd (a + b) = (endless A).rnd (a + b) := (endless_rnd hin).symm
    rw [hr]
    refine ⟨.add h1 h2 a1 b1 hp, hu.nonneg (by linarith), ?_⟩
    calc (endless A).rnd (a + b) ≤ (endless A).rnd ((l.length : ℕ) : ℝ) := hu.mono hle
      _ = l.length := hu.nat _ hN

theorem Spec.IsDoubleInRange.total_eq (h : IsDoubleInRange A) {l : List ℝ} (hl : ∀ x ∈ l, 0 ≤ x ∧ x ≤ 1) (hN : l.length ≤ 2 ^ 53) :
    (endless A).total l = A.total l := if_pos (h.added (h.total l) hl hN).1

/-- A result in the range comes from an exact result in the range. -/
theorem rnd_of_result {x : ℝ} (hr : |(endless A).rnd x| ≤ big) : A.rnd x = (endless A).rnd x := by
  by_cases hx : |x| ≤ big
  · exact (endless_rnd hx).symm
  · rw [endless_out hx] at hr; exact absurd hr hx

/-! ### the functions -/

theorem rawWeightsD_range (h : IsDoubleInRange A) {logw : List F} (hu : UsableLog logw) (hM : ∀ l, fin l ∈ logw → |l| ≤ 2 ^ 999) :
    rawWeightsD A logw = rawWeightsD (endless A) logw := by
  obtain ⟨m, hm, hmem, hle⟩ := hu.max
  rw [rawWeightsD_eq hu hm, rawWeightsD_eq hu hm]
  congr 2
  apply List.map_congr_left
  intro a ha
  cases a with
  | fin l =>
    have h1 := _root_.abs_le.mp (hM l ha)
    have h2 := _root_.abs_le.mp (hM m hmem)
    have hin : |l - m| ≤ big := by
      have e : big = 2 ^ 999 + 2 ^ 999 := by unfold big; rw [← two_mul, ← pow_succ']
      rw [e]
      generalize (2 : ℝ) ^ 999 = y at *
      rw [_root_.abs_le]
      constructor <;> linarith
    have h0 : (endless A).rnd (l - m) ≤ 0 := by
      rw [← h.double.zero]; exact h.double.mono (by linarith [hle l ha])
    simp only [rawOf]
    rw [endless_rnd hin] at h0 ⊢
    exact (if_pos h0).symm
  | _ => rfl

theorem normalizeD_range (h : IsDoubleInRange A) {w : List ℝ} (hw : ∀ x ∈ w, 0 ≤ x ∧ x ≤ 1) (hN : w.length ≤ 2 ^ 53)
    (h0 : (endless A).total w ≠ 0) (hr : ∀ x ∈ w, |(endless A).rnd (x / (endless A).total w)| ≤ big) :
    normalizeD A (w.map fin) = normalizeD (endless A) (w.map fin) := by
  unfold normalizeD
  dsimp only
  rw [sumD_fin, sumD_fin, h.total_eq hw hN]
  rw [h.total_eq hw hN] at hr h0
  rw [List.map_map, List.map_map]
  apply List.map_congr_left
  intro x hx
  simp only [Function.comp]
  rw [fin_div _ _ h0]
  simp only [Arith.round, rnd_of_result (hr x hx)]

theorem invSumSqD_range (h : IsDoubleInRange A) {v : List ℝ} (hv : ∀ x ∈ v, 0 ≤ x ∧ x ≤ 1) (hN : v.length ≤ 2 ^ 53)
    (h0 : (endless A).total (v.map fun x => (endless A).rnd (x ^ 2)) ≠ 0)
    (hr : |(endless A).rnd (1 / (endless A).total (v.map fun x => (endless A).rnd (x ^ 2)))| ≤ big) :
    invSumSqD A (v.map fin) = invSumSqD (endless A) (v.map fin) := by
  have hsq : (v.map fun x => A.rnd (x ^ 2)) = v.map fun x => (endless A).rnd (x ^ 2) := by
    apply List.map_congr_left
    intro x hx
    refine (endless_rnd ?_).symm
    rw [abs_of_nonneg (sq_nonneg x)]
    have := hv x hx
    exact (pow_le_one₀ this.1 this.2).trans ((by norm_num : (1 : ℝ) ≤ 2 ^ 200).trans big_ge)
  have h01 : ∀ x ∈ v.map fun x => (endless A).rnd (x ^ 2), 0 ≤ x ∧ x ≤ 1 := by
    intro y hy
    obtain ⟨x, hx, rfl⟩ := List.mem_map.mp hy
    have := hv x hx
    exact ⟨h.double.nonneg (sq_nonneg x), h.double.le_one (pow_le_one₀ this.1 this.2)⟩
  have ht := h.total_eq h01 (by rw [List.length_map]; exact hN)
  rw [invSumSqD_fin h0, invSumSqD_fin (by rw [hsq, ← ht]; exact h0), hsq, ← ht, rnd_of_result hr]

/-- Normalising usable weights and their effective sample size stay in the range. -/
theorem ess_range (h : IsDoubleInRange A) {w : List ℝ} (hus : Usable w) (hw : ∀ x ∈ w, 0 ≤ x ∧ x ≤ 1)
    (hv : ∀ x ∈ w, (endless A).rnd (x / (endless A).total w) ≤ 1) :
    normalizeD A (w.map fin) = normalizeD (endless A) (w.map fin) ∧
    effectiveSampleSizeD A (w.map fin) = effectiveSampleSizeD (endless A) (w.map fin) := by
  have hu := h.double
  obtain ⟨h1, h2, h3⟩ := ess_close hu hus (hu.total w) (hu.total _)
  have hN : w.length ≤ 2 ^ 53 := hus.few.trans (by norm_num)
  have hv01 : ∀ x ∈ w.map fun x => (endless A).rnd (x / (endless A).total w), 0 ≤ x ∧ x ≤ 1 := by
    intro y hy
    obtain ⟨x, hx, rfl⟩ := List.mem_map.mp hy
    exact ⟨hu.nonneg (div_nonneg (hw x hx).1 h1.le), hv x hx⟩
  have hb1 : (1 : ℝ) ≤ Poco.big := (by norm_num : (1 : ℝ) ≤ 2 ^ 200).trans big_ge
  have hn := normalizeD_range h hw hN h1.ne' fun x hx => by
    have := hv01 _ (List.mem_map_of_mem hx)
    rw [abs_of_nonneg this.1]
    exact this.2.trans hb1
  refine ⟨hn, ?_⟩
  unfold effectiveSampleSizeD
  dsimp only
  rw [hn, normalizeD_fin h1.ne']
  rw [invSumSqD_range h hv01 (by rw [List.length_map]; exact hN) h2.ne']
  have h4 := ess_le_length hus.isWeights
  have h0 := (ess_pos hus.isWeights).le
  have h5 : (w.length : ℝ) * 2⁻¹ ^ 46 ≤ 1 := by
    calc (w.length : ℝ) * 2⁻¹ ^ 46 ≤ 2 ^ 40 * 2⁻¹ ^ 46 := mul_le_mul_of_nonneg_right hus.few' (by positivity)
      _ ≤ 1 := by norm_num
  have h6 := h3.trans (mul_le_mul_of_nonneg_right h5 h0)
  have h7 := _root_.abs_le.mp h6
  have h8 := hus.few'
  have h9 : (2 : ℝ) ^ 40 + 2 ^ 40 ≤ Poco.big := (by norm_num : (2 : ℝ) ^ 40 + 2 ^ 40 ≤ 2 ^ 200).trans big_ge
  rw [_root_.abs_le]
  constructor <;> linarith

/-- **C156** (weights).  On a machine whose double precision is only known up to `2^1000`, and for log-weights that are no larger than `2^999`, the weights
and the effective sample size of a run are those of the exact formulas up to rounding: no step leaves the range of double precision, however far apart the
log-weights are. -/
theorem C156_weights (hA : IsDoubleInRange A) (logw : List F) (h : UsableLog logw) (hM : ∀ l, fin l ∈ logw → |l| ≤ 2 ^ 999) :
    ∃ w v : List ℝ, ∃ e : ℝ,
      rawWeightsD A logw = .ok (w.map fin) ∧ (∀ x ∈ w, 0 ≤ x ∧ x ≤ 1 ∧ A.rnd x = x) ∧ 1 ∈ w ∧
      effectiveSampleSizeD A (w.map fin) = (v.map fin, fin e) ∧ (∀ x ∈ v, 0 ≤ x ∧ x ≤ 1) ∧
      |v.sum - 1| ≤ logw.length * 2⁻¹ ^ 49 ∧
      List.Forall₂ (fun x a => |x - weightOf a / (logw.map weightOf).sum| ≤
        (logw.length * 2⁻¹ ^ 49 + 2⁻¹ ^ 36) * (weightOf a / (logw.map weightOf).sum) + 2⁻¹ ^ 900) v logw ∧
      |e - ess (logw.map weightOf)| ≤ (logw.length * 2⁻¹ ^ 45 + 2⁻¹ ^ 35) * ess (logw.map weightOf) := by
  have hu := hA.double
  obtain ⟨w, v, e, a1, a2, a3, a4, a5, a6, a7, a8⟩ := C122_weights hu logw h
  have hdbl : ∀ x ∈ w, A.rnd x = x := by
    intro x hx
    have hx2 := a2 x hx
    rw [← endless_rnd (by rw [abs_of_nonneg hx2.1]; exact hx2.2.trans ((by norm_num : (1 : ℝ) ≤ 2 ^ 200).trans big_ge))]
    obtain ⟨m, hm, -, -⟩ := h.max
    rw [rawWeightsD_eq h hm] at a1
    rw [← (List.map_injective_iff.mpr fun _ _ h => F.fin.inj h) (Except.ok.inj a1)] at hx
    obtain ⟨a, -, rfl⟩ := List.mem_map.mp hx
    cases a with
    | fin l => exact hu.exp_double _
    | nan => exact hu.zero
    | ninf => exact hu.zero
    | pinf => exact hu.zero
  refine ⟨w, v, e, (rawWeightsD_range hA h hM).trans a1, fun x hx => ⟨(a2 x hx).1, (a2 x hx).2, hdbl x hx⟩, a3, ?_, a5, a6, a7, a8⟩
  have hlen : w.length = logw.length := by
    obtain ⟨m, hm, -, -⟩ := h.max
    rw [rawWeightsD_eq h hm] at a1
    have := congrArg List.length (Except.ok.inj a1)
    simpa using this.symm
  have hW : 1 ≤ w.sum := List.single_le_sum (fun x hx => (a2 x hx).1) 1 a3
  have hus : Usable w := ⟨fun x hx => (a2 x hx).1, le_trans (pow_le_one₀ (by norm_num) (by norm_num)) hW, by rw [hlen]; exact h.few⟩
  rw [(ess_range hA hus a2 ?_).2, a4]
  intro x hx
  obtain ⟨v', e', b1, b2, -⟩ := effectiveSampleSizeD_fin hu hus
  have hvv : v' = v := by
    have := congrArg Prod.fst (b1.symm.trans a4)
    exact (List.map_injective_iff.mpr fun _ _ h => F.fin.inj h) this
  exact (a5 _ (by rw [← hvv, b2]; exact List.mem_map_of_mem hx)).2

/-- Dividing doubles in `[0, 1]` by their computed sum gives at most 1. -/
theorem quot_le_one (h : IsDoubleInRange A) {w : List ℝ} (hus : Usable w) (hw : ∀ x ∈ w, 0 ≤ x ∧ x ≤ 1 ∧ A.rnd x = x) :
    ∀ x ∈ w, (endless A).rnd (x / (endless A).total w) ≤ 1 := by
  have hu := h.double
  obtain ⟨h1, -, -⟩ := ess_close hu hus (hu.total w) (hu.total _)
  have hS := (Added.ge_mem hu.mono hu.zero hu.idem (hu.total w) fun x hx => by
    obtain ⟨a, b, c⟩ := hw x hx
    refine ⟨a, ?_⟩
    rw [endless_rnd, c]
    rw [abs_of_nonneg a]
    exact b.trans ((by norm_num : (1 : ℝ) ≤ 2 ^ 200).trans big_ge)).2
  intro x hx
  exact hu.le_one (by rw [div_le_one h1]; exact hS x hx)

theorem essD_bound (hA : IsDouble A) {k : List ℝ} (hk : Usable k) : 1 / 2 ≤ essD A k ∧ essD A k ≤ 2 ^ 41 := by
  obtain ⟨-, -, h3⟩ := ess_close hA hk (hA.total k) (hA.total _)
  have h4 := ess_le_length hk.isWeights
  have h0 := one_le_ess hk.isWeights
  have h5 : (k.length : ℝ) * 2⁻¹ ^ 46 ≤ 1 / 2 := by
    calc (k.length : ℝ) * 2⁻¹ ^ 46 ≤ 2 ^ 40 * 2⁻¹ ^ 46 := mul_le_mul_of_nonneg_right hk.few' (by positivity)
      _ ≤ 1 / 2 := by norm_num
  have h7 := _root_.abs_le.mp (h3.trans (mul_le_mul_of_nonneg_right h5 (by linarith)))
  have h8 := hk.few'
  have h9 : (2 : ℝ) ^ 41 = 2 * 2 ^ 40 := by norm_num
  unfold essD
  constructor <;> linarith

theorem trimLoopD_range {α : Type*} (h : IsDoubleInRange A) (samples : List α) (v : List ℝ) (hv : ∀ x ∈ v, 0 ≤ x ∧ x ≤ 1 ∧ A.rnd x = x) (hvn : v ≠ [])
    (hk : ∀ t : ℝ, (∃ b ∈ v, t ≤ b) → Usable (v.filter fun x => decide (t ≤ x))) (e : F) (E : ℝ) (hE : 1 / 2 ≤ E) (grid : List ℝ)
    (hg : ∀ p ∈ grid, 0 ≤ p ∧ p ≤ 100) : ∀ (k : ℕ) (i : ℤ), (i + grid.length + 1).toNat = k →
    trimLoopD A samples (v.map fin) (fin E) e grid i = trimLoopD (endless A) samples (v.map fin) (fin E) e grid i := by
  have hu := h.double
  intro k
  induction k using Nat.strong_induction_on with
  | _ k ih =>
    intro i hi
    rw [trimLoopD.eq_def A samples (v.map fin) (fin E) e grid i, trimLoopD.eq_def (endless A) samples (v.map fin) (fin E) e grid i]
    cases hz : pyGet? grid i with
    | none => rfl
    | some p =>
      have hpm : p ∈ grid := by
        unfold pyGet? at hz
        split_ifs at hz
        · exact List.mem_of_getElem? hz
        · exact List.mem_of_getElem? hz
      have h0 : 0 ≤ i + grid.length := by
        by_contra hc
        unfold pyGet? at hz
        rw [if_neg (by omega), if_neg (by omega)] at hz
        cases hz
      obtain ⟨g0, g1⟩ := hg p hpm
      have hkU := hk _ (h.pct_le v hvn p g0 g1)
      have hpct : ∀ B : Arith, B.pct = A.pct → B.percentile (v.map fin) p = fin (A.pct v p) := by
        intro B hB
        unfold Arith.percentile
        rw [if_pos (all_finite v), val_fin, hB]
      have hsel : maskSelect ((v.map fin).map fun x => decide (fin (A.pct v p) ≤ x)) (v.map fin) = (v.filter fun x => decide (A.pct v p ≤ x)).map fin := by
        rw [maskSelect_self (fun x : F => decide (fin (A.pct v p) ≤ x)) (v.map fin), List.filter_map]
        simp [Function.comp_def]
      have hk01 : ∀ x ∈ v.filter fun x => decide (A.pct v p ≤ x), 0 ≤ x ∧ x ≤ 1 ∧ A.rnd x = x := fun x hx => hv x (List.mem_filter.mp hx).1
      obtain ⟨r1, r2⟩ := ess_range h hkU (fun x hx => ⟨(hk01 x hx).1, (hk01 x hx).2.1⟩) (quot_le_one h hkU hk01)
      have r3 : invSumSqD A (normalizeD (endless A) ((v.filter fun x => decide (A.pct v p ≤ x)).map fin)) =
          invSumSqD (endless A) (normalizeD (endless A) ((v.filter fun x => decide (A.pct v p ≤ x)).map fin)) := by
        have := congrArg Prod.snd r2
        simp only [effectiveSampleSizeD] at this
        rwa [r1] at this
      obtain ⟨q1, q2, -⟩ := ess_close hu hkU (hu.total _) (hu.total _)
      have hinv : invSumSqD (endless A) (normalizeD (endless A) ((v.filter fun x => decide (A.pct v p ≤ x)).map fin)) =
          fin (essD (endless A) (v.filter fun x => decide (A.pct v p ≤ x))) := by
        rw [normalizeD_fin q1.ne', invSumSqD_fin q2.ne']
        rfl
      obtain ⟨b1, b2⟩ := essD_bound hu hkU
      have hq : A.round (fin (essD (endless A) (v.filter fun x => decide (A.pct v p ≤ x))) / fin E) =
          (endless A).round (fin (essD (endless A) (v.filter fun x => decide (A.pct v p ≤ x))) / fin E) := by
        rw [fin_div _ _ (by linarith : E ≠ 0)]
        simp only [Arith.round]
        rw [endless_rnd]
        rw [abs_of_nonneg (by positivity)]
        have : essD (endless A) (v.filter fun x => decide (A.pct v p ≤ x)) / E ≤ 2 ^ 42 := by
          rw [div_le_iff₀ (by linarith)]
          have h9 : (2 : ℝ) ^ 42 = 2 * 2 ^ 41 := by norm_num
          rw [h9]
          nlinarith
        exact (this.trans (by norm_num : (2 : ℝ) ^ 42 ≤ 2 ^ 200)).trans big_ge
      have hrec := ih (i - 1 + grid.length + 1).toNat (by omega) (i - 1) rfl
      simp only [hpct A rfl, hpct (endless A) rfl, hsel, r1, r3, hinv, hq, hrec]

/-- **C156** (trimming).  On such a machine `trim_weights` of at most `2^40` weights between 0 and 1 returns, and keeps the pairs and returns the weights it
does without an upper end of the range (the conclusion is that of C123). -/
theorem C156_trim {α : Type*} (hA : IsDoubleInRange A) (samples : List α) (w : List ℝ) (hw : ∀ x ∈ w, 0 ≤ x ∧ x ≤ 1 ∧ A.rnd x = x) (hbig : 2⁻¹ ^ 200 ≤ w.sum)
    (hN : w.length ≤ 2 ^ 40) (hl : samples.length = w.length) (e : ℝ) (he : e ≤ 1 - w.length * 2⁻¹ ^ 44) (bins : ℕ) (hb : 1 ≤ bins) :
    ∃ r, trimWeightsD A samples (w.map fin) (fin e) bins = .ok r ∧
      ∃ t : ℝ, ∃ kept : List (α × ℝ), kept = (samples.zip w).filter (fun q => decide (t ≤ q.2)) ∧ kept ≠ [] ∧
        r.samples = kept.map (·.1) ∧
        (∃ z : List ℝ, r.weights = z.map fin ∧ (∀ x ∈ z, 0 ≤ x ∧ x ≤ 1 ∧ A.rnd x = x) ∧ |z.sum - 1| ≤ z.length * 2⁻¹ ^ 49 ∧
          List.Forall₂ (fun x (q : α × ℝ) => |x - q.2 / (kept.map (·.2)).sum| ≤
            w.length * 2⁻¹ ^ 47 * (q.2 / (kept.map (·.2)).sum) + 2⁻¹ ^ 900) z kept) ∧
        (e - w.length * 2⁻¹ ^ 44) * ess w ≤ ess (kept.map (·.2)) := by
  have hu := hA.double
  have hus : Usable w := ⟨fun x hx => (hw x hx).1, hbig, hN⟩
  obtain ⟨r, c1, t, kept, c2, c3, c4, ⟨z, z1, z2, z3, z4⟩, c6⟩ := C123_trim hu samples w hus.isWeights hbig hN hl e he bins hb
  have hin : ∀ x : ℝ, 0 ≤ x → x ≤ 1 → (endless A).rnd x = A.rnd x := fun x h0 h1 =>
    endless_rnd (by rw [abs_of_nonneg h0]; exact h1.trans ((by norm_num : (1 : ℝ) ≤ 2 ^ 200).trans big_ge))
  refine ⟨r, ?_, t, kept, c2, c3, c4, ⟨z, z1, fun x hx => ?_, z3, z4⟩, c6⟩
  · rw [← c1]
    obtain ⟨r1, r2⟩ := ess_range hA hus (fun x hx => ⟨(hw x hx).1, (hw x hx).2.1⟩) (quot_le_one hA hus hw)
    obtain ⟨v, E, hess, hv, hS, hcv, hE⟩ := effectiveSampleSizeD_fin hu hus
    have hnorm : normalizeD (endless A) (w.map fin) = v.map fin := by
      have := congrArg Prod.fst hess
      simpa [effectiveSampleSizeD] using this
    have hinv : invSumSqD (endless A) (v.map fin) = fin E := by
      have := congrArg Prod.snd hess
      simp only [effectiveSampleSizeD] at this
      rwa [hnorm] at this
    have hinvA : invSumSqD A (v.map fin) = fin E := by
      have := congrArg Prod.snd (r2.trans hess)
      simp only [effectiveSampleSizeD] at this
      rwa [r1, hnorm] at this
    have hv1 : ∀ x ∈ v, 0 ≤ x ∧ x ≤ 1 ∧ A.rnd x = x := by
      intro y hy
      rw [hv] at hy
      obtain ⟨x, hx, rfl⟩ := List.mem_map.mp hy
      have g0 := hu.nonneg (div_nonneg (hw x hx).1 hS.le)
      have g1 := quot_le_one hA hus hw x hx
      exact ⟨g0, g1, by rw [← hin _ g0 g1, hu.idem]⟩
    have hvlen : v.length = w.length := by rw [hv, List.length_map]
    have hvn : v ≠ [] := by
      intro hc
      rw [hc] at hvlen
      exact hus.ne_nil (List.length_eq_zero_iff.mp hvlen.symm)
    have hf := hus.few'
    have hvsum : 1 / 2 ≤ v.sum := by
      have h1 := hcv.sum
      rw [hus.probs.sum, List.length_map, mul_one] at h1
      have h2 : eta ≤ 2⁻¹ ^ 50 := by unfold eta; exact pow_le_pow_of_le_one (by norm_num) (by norm_num) (by norm_num)
      have h3 : (w.length : ℝ) * eta ≤ w.length * 2⁻¹ ^ 50 := mul_le_mul_of_nonneg_left h2 (by positivity)
      have h4 : (w.length : ℝ) * 2⁻¹ ^ 50 ≤ 1 / 4 := by
        calc (w.length : ℝ) * 2⁻¹ ^ 50 ≤ 2 ^ 40 * 2⁻¹ ^ 50 := mul_le_mul_of_nonneg_right hf (by positivity)
          _ ≤ 1 / 4 := by norm_num
      have h5 := (_root_.abs_le.mp h1).1
      linarith
    obtain ⟨b, hb1, hb2⟩ := exists_max hvn
    have hbbig : 2⁻¹ ^ 41 ≤ b := by
      have h1 : v.sum ≤ v.length * b := by
        have := List.sum_le_card_nsmul v b hb2
        simpa using this
      rw [hvlen] at h1
      have hb0 : 0 ≤ b := (hv1 b hb1).1
      have h2 : w.length * b ≤ 2 ^ 40 * b := mul_le_mul_of_nonneg_right hf hb0
      have h3 : (2⁻¹ : ℝ) ^ 41 * 2 ^ 40 = 1 / 2 := by norm_num
      refine le_of_mul_le_mul_right (a := (2 : ℝ) ^ 40) ?_ (by positivity)
      rw [h3, mul_comm b]
      exact hvsum.trans (h1.trans h2)
    have hku : ∀ t : ℝ, (∃ c ∈ v, t ≤ c) → Usable (v.filter fun y => decide (t ≤ y)) := by
      rintro t ⟨c, hc1, hc2⟩
      refine ⟨fun y hy => (hv1 y (List.mem_filter.mp hy).1).1, ?_, ?_⟩
      · have hbm : b ∈ v.filter fun y => decide (t ≤ y) := List.mem_filter.mpr ⟨hb1, by simpa using hc2.trans (hb2 c hc1)⟩
        have h1 := List.single_le_sum (fun y hy => (hv1 y (List.mem_filter.mp hy).1).1) b hbm
        have h2 : (2⁻¹ : ℝ) ^ 200 ≤ 2⁻¹ ^ 41 := by norm_num
        linarith
      · exact (List.length_filter_le _ _).trans (by rw [hvlen]; exact hN)
    have hE12 : 1 / 2 ≤ E := by
      have e1 : E = essD (endless A) w := by
        have := hinv
        obtain ⟨q1, q2, -⟩ := ess_close hu hus (hu.total _) (hu.total _)
        rw [hv, invSumSqD_fin q2.ne'] at this
        exact (F.fin.inj this).symm
      rw [e1]
      exact (essD_bound hu hus).1
    have hgrid : (percentileGrid bins).map A.rnd = (percentileGrid bins).map (endless A).rnd ∧ ∀ p ∈ (percentileGrid bins).map (endless A).rnd, 0 ≤ p ∧ p ≤ 100 := by
      have hmem : ∀ p ∈ percentileGrid bins, 0 ≤ p ∧ p ≤ 100 := by
        intro p hp
        obtain ⟨j, hj⟩ := List.mem_iff_getElem?.mp hp
        have hjb : j < bins := by
          have := (List.getElem?_eq_some_iff.mp hj).1
          simpa [percentileGrid] using this
        rw [percentileGrid_get bins j hjb] at hj
        rw [← Option.some.inj hj]
        exact gridPoint_range bins j hjb
      constructor
      · apply List.map_congr_left
        intro p hp
        obtain ⟨g0, g1⟩ := hmem p hp
        exact (endless_rnd (by rw [abs_of_nonneg g0]; exact g1.trans ((by norm_num : (100 : ℝ) ≤ 2 ^ 200).trans big_ge))).symm
      · intro p hp
        obtain ⟨q, hq, rfl⟩ := List.mem_map.mp hp
        obtain ⟨g0, g1⟩ := hmem q hq
        refine ⟨hu.nonneg g0, ?_⟩
        have := hu.nat 100 (by norm_num)
        rw [show ((100 : ℕ) : ℝ) = 100 by norm_num] at this
        rw [← this]
        exact hu.mono g1
    unfold trimWeightsD
    simp only [r1, hnorm, hinv, hinvA, hgrid.1]
    rw [trimLoopD_range hA samples v hv1 hvn hku (fin e) E hE12 _ hgrid.2 _ _ rfl]
  · obtain ⟨y0, y1, y2⟩ := z2 x hx
    exact ⟨y0, y1, by rw [← hin x y0 y1]; exact y2⟩

/-! ### a machine that goes wrong above the range -/

open Classical in
/-- 53-bit rounding that returns 0 for every result above `2^1000`. -/
noncomputable def shortRnd (x : ℝ) : ℝ := if |x| ≤ 2 ^ 1000 then round53 x else 0

/-- A machine with this rounding, and a wrong `exp` above 0. -/
noncomputable def shortArith : Arith where
  rnd := shortRnd
  exp := fun x => if x ≤ 0 then round53 (Real.exp x) else -7
  total := fun l => (exists_added shortRnd l).choose
  pct := demoArith.pct
  kahan := demoArith.kahan

theorem round53_two_pow (n : ℕ) : round53 (2 ^ n) = 2 ^ n := by
  have e0 : (2 : ℝ) ^ n = 2 ^ (n : ℤ) := (zpow_natCast _ _).symm
  have hp : (0 : ℝ) < 2 ^ (n : ℤ) := by positivity
  have e : (2 : ℝ) ^ (n : ℤ) / 2 ^ ((n : ℤ) - 52) = 2 ^ 52 := by
    rw [← zpow_sub₀ (by norm_num), sub_sub_cancel]
    norm_num
  rw [e0, round53_of (x := 2 ^ (n : ℤ)) n (2 ^ 52) le_rfl (by rw [zpow_add_one₀ (by norm_num)]; linarith) (by rw [e]; push_cast; linarith)
    (by rw [e]; push_cast; linarith)]
  rw [div_eq_iff (by positivity)] at e
  rw [e]
  push_cast
  ring

theorem round53_top : round53 (2 ^ 1000) = 2 ^ 1000 := round53_two_pow 1000

theorem short_in {x : ℝ} (h : |x| ≤ 2 ^ 1000) : shortRnd x = round53 x := if_pos h

theorem short_small {x : ℝ} (h0 : 0 ≤ x) (h1 : x ≤ 2 ^ 53) : shortRnd x = round53 x := by
  apply short_in
  rw [abs_of_nonneg h0]
  exact h1.trans (pow_le_pow_right₀ (by norm_num) (by norm_num))

theorem round53_big {x : ℝ} (h : |x| ≤ 2 ^ 1000) : |round53 x| ≤ 2 ^ 1000 := by
  have h1 := _root_.abs_le.mp h
  rw [_root_.abs_le, ← round53_top, ← round53_neg]
  exact ⟨round53_mono h1.1, round53_mono h1.2⟩

theorem short_double : IsDoubleInRange shortArith where
  mono := by
    intro x y hx hy h
    show shortRnd x ≤ shortRnd y
    rw [short_in hx, short_in hy]; exact round53_mono h
  idem := by
    intro x hx
    show shortRnd (shortRnd x) = shortRnd x
    rw [short_in hx, short_in (round53_big hx), round53_idem]
  neg := by
    intro x hx
    show shortRnd (-x) = -shortRnd x
    rw [short_in hx, short_in (by rw [abs_neg]; exact hx), round53_neg]
  top := by
    show shortRnd (2 ^ 1000) = 2 ^ 1000
    rw [short_in (by rw [abs_of_pos (by positivity)]), round53_top]
  nat := by
    intro k hk
    have : (k : ℝ) ≤ 2 ^ 53 := by exact_mod_cast hk
    show shortRnd k = k
    rw [short_small (by positivity) this, round53_nat k hk]
  near := by
    intro x hx
    show |shortRnd x - x| ≤ _
    rw [short_in hx]; exact demo_double.near x
  exp_double := by
    intro x hx
    have h : 0 ≤ round53 (Real.exp x) ∧ round53 (Real.exp x) ≤ 1 := demo_double.exp_range x hx
    show shortRnd (if x ≤ 0 then round53 (Real.exp x) else -7) = if x ≤ 0 then round53 (Real.exp x) else -7
    rw [if_pos hx, short_small h.1 (h.2.trans (by norm_num)), round53_idem]
  exp_zero := by
    show (if (0 : ℝ) ≤ 0 then round53 (Real.exp 0) else -7) = 1
    rw [if_pos le_rfl]; exact demo_double.exp_zero
  exp_range := by
    intro x hx
    show 0 ≤ (if x ≤ 0 then round53 (Real.exp x) else -7) ∧ (if x ≤ 0 then round53 (Real.exp x) else -7) ≤ 1
    rw [if_pos hx]; exact demo_double.exp_range x hx
  exp_near := by
    intro x hx
    show |(if x ≤ 0 then round53 (Real.exp x) else -7) - Real.exp x| ≤ _
    rw [if_pos hx]; exact demo_double.exp_near x hx
  total := fun l => (exists_added shortRnd l).choose_spec
  kahan_near := demo_double.kahan_near
  pct_le := demo_double.pct_le
  pct_zero := demo_double.pct_zero

/-- The machine is not one of C122: it is wrong above the range. -/
example : ¬ IsDouble shortArith := by
  intro h
  have h1 := h.mono (show (1 : ℝ) ≤ 2 ^ 1000 + 1 from le_add_of_nonneg_left (by positivity))
  have e1 : shortArith.rnd 1 = 1 := by simpa using short_double.nat 1 (by norm_num)
  have e2 : shortArith.rnd (2 ^ 1000 + 1) = 0 := if_neg (by
    rw [abs_of_pos (by positivity), not_le]
    exact lt_add_one _)
  rw [e1, e2] at h1
  linarith

/-- Log-weights `2^998` apart. -/
example : ∃ w v : List ℝ, ∃ e : ℝ, rawWeightsD shortArith [fin 0, fin (-2 ^ 998), ninf] = .ok (w.map fin) ∧ 1 ∈ w ∧
    effectiveSampleSizeD shortArith (w.map fin) = (v.map fin, fin e) := by
  obtain ⟨w, v, e, h1, -, h2, h3, -⟩ := C156_weights short_double [fin 0, fin (-2 ^ 998), ninf] ⟨by simp, by simp, ⟨0, by simp⟩, by norm_num⟩ (by
    intro l hl
    have h98 : (2 : ℝ) ^ 998 ≤ 2 ^ 999 := pow_le_pow_right₀ (by norm_num) (by norm_num)
    have h99 : (0 : ℝ) < 2 ^ 998 := by positivity
    simp only [List.mem_cons, F.fin.injEq, List.not_mem_nil, or_false, reduceCtorEq] at hl
    rcases hl with rfl | rfl
    · rw [abs_zero]; positivity
    · rw [abs_neg, abs_of_pos h99]; exact h98)
  exact ⟨w, v, e, h1, h2, h3⟩

example : ∃ r, trimWeightsD shortArith ["a", "b", "c"] ([1, 0, 1].map fin) (fin 0.99) 1000 = .ok r := by
  obtain ⟨r, h, -⟩ := C156_trim short_double ["a", "b", "c"] [1, 0, 1] (by
    have e1 : shortArith.rnd 1 = 1 := by simpa using short_double.nat 1 (by norm_num)
    have e0 : shortArith.rnd 0 = 0 := by simpa using short_double.nat 0 (by norm_num)
    intro x hx
    simp only [List.mem_cons, List.not_mem_nil, or_false] at hx
    rcases hx with rfl | rfl | rfl
    · exact ⟨by norm_num, by norm_num, e1⟩
    · exact ⟨by norm_num, by norm_num, e0⟩
    · exact ⟨by norm_num, by norm_num, e1⟩) (by norm_num) (by norm_num) rfl 0.99 (by norm_num) 1000 (by norm_num)
  exact ⟨r, h⟩

end Poco
