import Verif.Lemmas.Float
import Mathlib.Topology.Order.LiminfLimsup
import Mathlib.Topology.Algebra.Order.Field
import Mathlib.Analysis.SpecialFunctions.Log.Basic
import Mathlib.Analysis.SpecialFunctions.Sqrt

/-! The arithmetic of `F` against limits: a check of the value domain of the model, used by no property. -/

namespace Poco.Spec
open Filter Topology

/-- `u` converges to the value: to the number, or to an infinity. Nothing converges to NaN. -/
def Tends (u : ℕ → ℝ) : F → Prop
  | .nan => False
  | .ninf => Tendsto u atTop atBot
  | .pinf => Tendsto u atTop atTop
  | .fin r => Tendsto u atTop (𝓝 r)

end Poco.Spec

namespace Poco
open F Spec Filter Topology

theorem tends_nan {u : ℕ → ℝ} (h : Tends u nan) : False := h

/-- Addition is the limit of the sums, where it is not NaN. -/
theorem F.add_limit {u v : ℕ → ℝ} {a b : F} (ha : Tends u a) (hb : Tends v b) (h : a + b ≠ nan) : Tends (fun n => u n + v n) (a + b) := by
  cases a <;> cases b <;> simp only [Tends] at ha hb
  · exact ha.atBot_add_atBot hb
  · exact absurd rfl h
  · exact ha.atBot_add hb
  · exact absurd rfl h
  · exact ha.atTop_add_atTop hb
  · exact ha.atTop_add hb
  · exact ha.add_atBot hb
  · exact ha.add_atTop hb
  · exact Filter.Tendsto.add ha hb

theorem F.neg_limit {u : ℕ → ℝ} {a : F} (ha : Tends u a) : Tends (fun n => - u n) (-a) := by
  cases a <;> simp only [Tends] at ha
  · exact tendsto_neg_atBot_atTop.comp ha
  · exact tendsto_neg_atTop_atBot.comp ha
  · exact Filter.Tendsto.neg ha

theorem F.sub_limit {u v : ℕ → ℝ} {a b : F} (ha : Tends u a) (hb : Tends v b) (h : a - b ≠ nan) : Tends (fun n => u n - v n) (a - b) := by
  simp only [sub_eq_add_neg]
  exact F.add_limit ha (F.neg_limit hb) h

theorem F.mul_comm' (a b : F) : a * b = b * a := by
  cases a <;> cases b <;> try rfl
  exact congrArg fin (_root_.mul_comm _ _)

/-- Multiplication is the limit of the products, where it is not NaN. -/
theorem F.mul_limit {u v : ℕ → ℝ} {a b : F} (ha : Tends u a) (hb : Tends v b) (h : a * b ≠ nan) : Tends (fun n => u n * v n) (a * b) := by
  have infcase : ∀ {u v : ℕ → ℝ} {r : ℝ}, Tends u pinf → Tends v (fin r) → infMul r ≠ nan → Tends (fun n => u n * v n) (infMul r) := by
    intro u v r hu hv h
    unfold infMul at *
    split_ifs at * with h1 h2
    · exact absurd rfl h
    · exact Filter.Tendsto.atTop_mul_pos h2 hu hv
    · exact Filter.Tendsto.atTop_mul_neg (lt_of_le_of_ne (not_lt.mp h2) h1) hu hv
  have infcase' : ∀ {u v : ℕ → ℝ} {r : ℝ}, Tends u ninf → Tends v (fin r) → infMul (-r) ≠ nan → Tends (fun n => u n * v n) (infMul (-r)) := by
    intro u v r hu hv h
    have := infcase (F.neg_limit hu) (F.neg_limit hv) h
    simpa using this
  cases a <;> cases b <;> try (exact (tends_nan ha).elim)
  all_goals try (exact (tends_nan hb).elim)
  · exact Filter.Tendsto.atBot_mul_atBot₀ ha hb
  · exact Filter.Tendsto.atBot_mul_atTop₀ ha hb
  · exact infcase' ha hb h
  · exact Filter.Tendsto.atTop_mul_atBot₀ ha hb
  · exact Filter.Tendsto.atTop_mul_atTop₀ ha hb
  · exact infcase ha hb h
  · have := infcase' hb ha (by rw [F.mul_comm'] at h; exact h)
    simp only [_root_.mul_comm (v _)] at this
    exact this
  · have := infcase hb ha (by rw [F.mul_comm'] at h; exact h)
    simp only [_root_.mul_comm (v _)] at this
    exact this
  · exact Filter.Tendsto.mul ha hb

/-- Division is the limit of the quotients, where it is not NaN and the divisor not zero; for divisor zero, if the divisors approach it from above. -/
theorem F.div_limit {u v : ℕ → ℝ} {a b : F} (ha : Tends u a) (hb : Tends v b) (h : a / b ≠ nan) (h0 : b = fin 0 → ∀ n, 0 < v n) :
    Tends (fun n => u n / v n) (a / b) := by
  have hinv : ∀ {v : ℕ → ℝ}, Tends v (fin 0) → (∀ n, 0 < v n) → Tendsto (fun n => (v n)⁻¹) atTop atTop := by
    intro v hv hp
    exact tendsto_inv_nhdsGT_zero.comp (tendsto_nhdsWithin_iff.mpr ⟨hv, Eventually.of_forall hp⟩)
  simp only [div_eq_mul_inv]
  cases a <;> cases b <;> try (exact (tends_nan ha).elim)
  all_goals try (exact (tends_nan hb).elim)
  all_goals try (exact absurd rfl h)
  · rename_i r
    change Tends _ (if r < 0 then pinf else ninf)
    by_cases hr : r = 0
    · subst hr
      rw [if_neg (lt_irrefl _)]
      exact Filter.Tendsto.atBot_mul_atTop₀ ha (hinv hb (h0 rfl))
    · have hi : Tendsto (fun n => (v n)⁻¹) atTop (𝓝 r⁻¹) := Filter.Tendsto.inv₀ hb hr
      split_ifs with hlt
      · exact Filter.Tendsto.atBot_mul_neg (inv_lt_zero.mpr hlt) ha hi
      · exact Filter.Tendsto.atBot_mul_pos (inv_pos.mpr (lt_of_le_of_ne (not_lt.mp hlt) (Ne.symm hr))) ha hi
  · rename_i r
    change Tends _ (if r < 0 then ninf else pinf)
    by_cases hr : r = 0
    · subst hr
      rw [if_neg (lt_irrefl _)]
      exact Filter.Tendsto.atTop_mul_atTop₀ ha (hinv hb (h0 rfl))
    · have hi : Tendsto (fun n => (v n)⁻¹) atTop (𝓝 r⁻¹) := Filter.Tendsto.inv₀ hb hr
      split_ifs with hlt
      · exact Filter.Tendsto.atTop_mul_neg (inv_lt_zero.mpr hlt) ha hi
      · exact Filter.Tendsto.atTop_mul_pos (inv_pos.mpr (lt_of_le_of_ne (not_lt.mp hlt) (Ne.symm hr))) ha hi
  · have := Filter.Tendsto.mul ha (tendsto_inv_atBot_zero.comp hb)
    rw [mul_zero] at this
    exact this
  · have := Filter.Tendsto.mul ha (tendsto_inv_atTop_zero.comp hb)
    rw [mul_zero] at this
    exact this
  · rename_i r s
    by_cases hs : s = 0
    · subst hs
      have hi := hinv hb (h0 rfl)
      change Tends _ (if (0 : ℝ) = 0 then (if r = 0 then nan else if 0 < r then pinf else ninf) else fin (r / 0))
      change (if (0 : ℝ) = 0 then (if r = 0 then nan else if 0 < r then pinf else ninf) else fin (r / 0)) ≠ nan at h
      rw [if_pos rfl] at h ⊢
      split_ifs at * with h1 h2
      · exact absurd rfl h
      · exact Filter.Tendsto.pos_mul_atTop h2 ha hi
      · exact Filter.Tendsto.neg_mul_atTop (lt_of_le_of_ne (not_lt.mp h2) h1) ha hi
    · rw [fin_div _ _ hs]
      exact Filter.Tendsto.mul ha (Filter.Tendsto.inv₀ hb hs)

/-- `exp`, `abs`, `sqrt` and `log` are limits of their values at numbers (for `log` and `sqrt`: at positive numbers). -/
theorem F.exp_limit {u : ℕ → ℝ} {a : F} (ha : Tends u a) : Tends (fun n => Real.exp (u n)) (exp a) := by
  cases a <;> simp only [Tends] at ha
  · exact Real.tendsto_exp_atBot.comp ha
  · exact Real.tendsto_exp_atTop.comp ha
  · exact (Real.continuous_exp.tendsto _).comp ha

theorem F.abs_limit {u : ℕ → ℝ} {a : F} (ha : Tends u a) : Tends (fun n => |u n|) (abs a) := by
  cases a <;> simp only [Tends] at ha
  · exact tendsto_abs_atBot_atTop.comp ha
  · exact tendsto_abs_atTop_atTop.comp ha
  · exact (continuous_abs.tendsto _).comp ha

theorem F.log_limit {u : ℕ → ℝ} {a : F} (ha : Tends u a) (hu : ∀ n, 0 < u n) : Tends (fun n => Real.log (u n)) (log a) := by
  cases a <;> simp only [Tends] at ha
  · exfalso
    obtain ⟨n, hn⟩ := (ha.eventually (eventually_lt_atBot 0)).exists
    exact absurd (hu n) (not_lt.mpr hn.le)
  · exact Real.tendsto_log_atTop.comp ha
  · rename_i r
    have r0 : 0 ≤ r := ge_of_tendsto' ha fun n => (hu n).le
    simp only [log]
    rw [if_neg (not_lt.mpr r0)]
    split_ifs with h
    · subst h
      exact Real.tendsto_log_nhdsGT_zero.comp (tendsto_nhdsWithin_iff.mpr ⟨ha, Eventually.of_forall hu⟩)
    · exact (Real.continuousAt_log h).tendsto.comp ha

theorem F.sqrt_limit {u : ℕ → ℝ} {a : F} (ha : Tends u a) (hu : ∀ n, 0 ≤ u n) : Tends (fun n => Real.sqrt (u n)) (sqrt a) := by
  cases a <;> simp only [Tends] at ha
  · exfalso
    obtain ⟨n, hn⟩ := (ha.eventually (eventually_lt_atBot 0)).exists
    exact absurd (hu n) (not_le.mpr hn)
  · exact Real.tendsto_sqrt_atTop.comp ha
  · rename_i r
    have r0 : 0 ≤ r := ge_of_tendsto' ha hu
    simp only [sqrt]
    rw [if_neg (not_lt.mpr r0)]
    exact (Real.continuous_sqrt.tendsto _).comp ha

/-- The order is the order of the limits. -/
theorem F.lt_limit {u v : ℕ → ℝ} {a b : F} (ha : Tends u a) (hb : Tends v b) (h : a < b) : ∀ᶠ n in atTop, u n < v n := by
  cases a <;> cases b <;> try (exact False.elim h)
  all_goals try (exact (tends_nan ha).elim)
  all_goals try (exact (tends_nan hb).elim)
  · filter_upwards [ha.eventually (eventually_lt_atBot 0), hb.eventually (eventually_gt_atTop 0)] with n h1 h2
    exact h1.trans h2
  · rename_i r
    filter_upwards [ha.eventually (eventually_lt_atBot (r - 1)), hb.eventually (lt_mem_nhds (by linarith : r - 1 < r))] with n h1 h2
    exact h1.trans h2
  · rename_i r
    filter_upwards [ha.eventually (gt_mem_nhds (by linarith : r < r + 1)), hb.eventually (eventually_gt_atTop (r + 1))] with n h1 h2
    exact h1.trans h2
  · exact Filter.Tendsto.eventually_lt ha hb h

theorem F.le_iff (a b : F) : a ≤ b ↔ a < b ∨ feq a b := by
  cases a <;> cases b <;> simp [LE.le, F.le, LT.lt, F.lt, feq]
  rename_i r s
  exact _root_.le_iff_lt_or_eq (a := r) (b := s)

/-- Two values are equal as floats exactly if some sequence converges to both. -/
theorem F.feq_limit (a b : F) : feq a b ↔ ∃ u : ℕ → ℝ, Tends u a ∧ Tends u b := by
  constructor
  · intro h
    cases a <;> cases b <;> simp only [feq] at h
    · exact ⟨fun n => -(n : ℝ), tendsto_neg_atTop_atBot.comp tendsto_natCast_atTop_atTop, tendsto_neg_atTop_atBot.comp tendsto_natCast_atTop_atTop⟩
    · exact ⟨fun n => n, tendsto_natCast_atTop_atTop, tendsto_natCast_atTop_atTop⟩
    · rename_i r s
      subst h
      exact ⟨fun _ => r, tendsto_const_nhds, tendsto_const_nhds⟩
  · rintro ⟨u, ha, hb⟩
    cases a <;> cases b <;> try (exact (tends_nan ha).elim)
    all_goals try (exact (tends_nan hb).elim)
    all_goals try trivial
    · exact (ha.not_tendsto disjoint_atBot_atTop hb).elim
    · exact not_tendsto_nhds_of_tendsto_atBot ha _ hb
    · exact (ha.not_tendsto disjoint_atTop_atBot hb).elim
    · exact not_tendsto_nhds_of_tendsto_atTop ha _ hb
    · exact not_tendsto_nhds_of_tendsto_atBot hb _ ha
    · exact not_tendsto_nhds_of_tendsto_atTop hb _ ha
    · exact tendsto_nhds_unique ha hb

/-- NaN only where the limits of the operands do not determine a limit: two pairs of sequences, each with a limit of its own. -/
theorem F.add_indeterminate {a b : F} (ha : a ≠ nan) (hb : b ≠ nan) (h : a + b = nan) :
    ∃ u v u' v' : ℕ → ℝ, Tends u a ∧ Tends v b ∧ Tends u' a ∧ Tends v' b ∧ Tends (fun n => u n + v n) (fin 0) ∧ Tends (fun n => u' n + v' n) (fin 1) := by
  have t : Tendsto (fun n : ℕ => (n : ℝ)) atTop atTop := tendsto_natCast_atTop_atTop
  have t' : Tendsto (fun n : ℕ => -(n : ℝ)) atTop atBot := tendsto_neg_atTop_atBot.comp t
  cases a <;> cases b <;> try (exact absurd rfl ha)
  all_goals try (exact absurd rfl hb)
  all_goals try (cases h)
  · refine ⟨fun n => -(n : ℝ), fun n => n, fun n => -(n : ℝ), fun n => n + 1, t', t, t', tendsto_atTop_add_const_right _ _ t, ?_, ?_⟩
    · simp [Tends]
    · simp [Tends]
  · refine ⟨fun n => n, fun n => -(n : ℝ), fun n => n + 1, fun n => -(n : ℝ), t, t', tendsto_atTop_add_const_right _ _ t, t', ?_, ?_⟩
    · simp [Tends]
    · simp [Tends]

end Poco
