import Verif.Spec.Units
import Verif.Props.Shift

/-! Lemmas for C136: float arithmetic and the scaler under a change of units. -/

namespace Poco
open F Spec

variable {d : ℕ} {B Φ : Type}

/-! ### arithmetic -/

@[simp] theorem newUnit_nan (a b : ℝ) : newUnit a b nan = nan := rfl
@[simp] theorem newUnit_ninf (a b : ℝ) : newUnit a b ninf = ninf := rfl
@[simp] theorem newUnit_pinf (a b : ℝ) : newUnit a b pinf = pinf := rfl
@[simp] theorem newUnit_fin (a b r : ℝ) : newUnit a b (fin r) = fin (a * r + b) := rfl

theorem newUnit_one (k : ℝ) (x : F) : newUnit 1 k x = x + fin k := by cases x <;> simp
theorem newUnit_id (x : F) : newUnit 1 0 x = x := by cases x <;> simp
theorem newUnit_split (a b : ℝ) (x : F) : newUnit a b x = newUnit a 0 x + fin b := by cases x <;> simp
theorem newUnit_isfinite (a b : ℝ) (x : F) : (newUnit a b x).isfinite = x.isfinite := by cases x <;> rfl
theorem newUnit_isnan (a b : ℝ) (x : F) : (newUnit a b x).isnan = x.isnan := by cases x <;> rfl

theorem newUnit_back {a : ℝ} (ha : 0 < a) (b : ℝ) (x : F) : newUnit (1 / a) (-b / a) (newUnit a b x) = x := by
  cases x <;> simp
  field_simp
  ring

theorem newUnit_sub (a b : ℝ) (x y : F) : newUnit a b x - newUnit a b y = newUnit a 0 (x - y) := by
  cases x <;> cases y <;> first | rfl | (simp; try ring)
theorem newUnit_add (a b : ℝ) (x y : F) : newUnit a 0 x + newUnit a b y = newUnit a b (x + y) := by
  cases x <;> cases y <;> first | rfl | (simp; try ring)
theorem newUnit_sub' (a b : ℝ) (x y : F) : newUnit a b x - newUnit a 0 y = newUnit a b (x - y) := by
  cases x <;> cases y <;> first | rfl | (simp; try ring)
theorem newUnit_add_sub (a b : ℝ) (x y z : F) :
    newUnit a b x + newUnit a b y - newUnit a b z = newUnit a b (x + y - z) := by
  cases x <;> cases y <;> cases z <;> first | rfl | (simp; try ring)
theorem newUnit_sub_add (a b : ℝ) (x y z : F) :
    newUnit a b x - newUnit a b y + newUnit a b z = newUnit a b (x - y + z) := by
  cases x <;> cases y <;> cases z <;> first | rfl | (simp; try ring)

theorem newUnit_lt {a : ℝ} (ha : 0 < a) (b : ℝ) (x y : F) : newUnit a b x < newUnit a b y ↔ x < y := by
  cases x <;> cases y <;> simp [ha]
theorem newUnit_le {a : ℝ} (ha : 0 < a) (b : ℝ) (x y : F) : newUnit a b x ≤ newUnit a b y ↔ x ≤ y := by
  cases x <;> cases y <;> simp [ha]

theorem infMul_scale {a : ℝ} (ha : 0 < a) (r : ℝ) : infMul (a * r) = infMul r := by
  unfold infMul
  simp [ha.ne', mul_pos_iff_of_pos_left ha]
theorem newUnit_infMul (a b r : ℝ) : newUnit a b (infMul r) = infMul r := by
  unfold infMul
  split_ifs <;> rfl

theorem pinf_mul_fin (r : ℝ) : (pinf * fin r : F) = infMul r := rfl
theorem ninf_mul_fin (r : ℝ) : (ninf * fin r : F) = infMul (-r) := rfl
theorem fin_mul_pinf (r : ℝ) : (fin r * pinf : F) = infMul r := rfl
theorem fin_mul_ninf (r : ℝ) : (fin r * ninf : F) = infMul (-r) := rfl

theorem mul_newUnit {a : ℝ} (ha : 0 < a) (p x : F) : p * newUnit a 0 x = newUnit a 0 (p * x) := by
  cases p <;> cases x <;> first
    | rfl
    | (simp only [newUnit_fin, newUnit_pinf, newUnit_ninf, add_zero, pinf_mul_fin, ninf_mul_fin, fin_mul_pinf, fin_mul_ninf,
        newUnit_infMul, infMul_scale ha, ← mul_neg]; done)
    | (simp; try ring)
theorem newUnit_mul {a : ℝ} (ha : 0 < a) (x p : F) : newUnit a 0 x * p = newUnit a 0 (x * p) := by
  cases p <;> cases x <;> first
    | rfl
    | (simp only [newUnit_fin, newUnit_pinf, newUnit_ninf, add_zero, pinf_mul_fin, ninf_mul_fin, fin_mul_pinf, fin_mul_ninf,
        newUnit_infMul, infMul_scale ha, ← mul_neg]; done)
    | (simp; try ring)

theorem newUnit_div {a : ℝ} (ha : 0 < a) (x y : F) : newUnit a 0 x / newUnit a 0 y = x / y := by
  cases x <;> cases y <;> first
    | rfl
    | (show F.div _ _ = F.div _ _
       simp [F.div, ha, ha.ne', mul_neg_iff, ha.le, not_lt.mpr ha.le, mul_div_mul_left])

theorem newUnit_div_ofNat (a : ℝ) (x : F) (n : ℕ) (hn : 0 < n) : newUnit a 0 x / F.ofNat n = newUnit a 0 (x / F.ofNat n) := by
  have : (0 : ℝ) < n := by exact_mod_cast hn
  unfold F.ofNat
  cases x with
  | nan => rfl
  | ninf => show F.div _ _ = newUnit a 0 (F.div _ _); simp [F.div, not_lt.mpr this.le]
  | pinf => show F.div _ _ = newUnit a 0 (F.div _ _); simp [F.div, not_lt.mpr this.le]
  | fin r => rw [newUnit_fin, fin_div _ _ this.ne', fin_div _ _ this.ne', newUnit_fin]; congr 1; ring

theorem log_newUnit {a : ℝ} (ha : 0 < a) (x : F) : log (newUnit a 0 x) = log x + fin (Real.log a) := by
  cases x with
  | nan => rfl
  | ninf => rfl
  | pinf => rfl
  | fin r =>
    rcases lt_trichotomy r 0 with h | h | h
    · simp [F.log, h, mul_neg_of_pos_of_neg ha h]
    · simp [F.log, h]
    · rw [newUnit_fin, add_zero, log_fin _ (mul_pos ha h), log_fin _ h, Real.log_mul ha.ne' h.ne', fin_add, add_comm]

theorem exp_add_log {a : ℝ} (ha : 0 < a) (u : F) : F.exp (u + fin (Real.log a)) = newUnit a 0 (F.exp u) := by
  cases u <;> simp
  rw [Real.exp_add, Real.exp_log ha, mul_comm]

theorem sum_newUnit (a : ℝ) (l : List F) : sum (l.map (newUnit a 0)) = newUnit a 0 (sum l) := by
  induction l with
  | nil => simp
  | cons x l ih => rw [List.map_cons, sum_cons, ih, sum_cons, newUnit_add]

theorem mean_newUnit0 (a : ℝ) (l : List F) : mean (l.map (newUnit a 0)) = newUnit a 0 (mean l) := by
  unfold mean
  rw [sum_newUnit, List.length_map]
  by_cases hl : l = []
  · subst hl
    have : (fin 0 / fin 0 : F) = nan := by show F.div _ _ = _; simp [F.div]
    simp [F.ofNat, this]
  · exact newUnit_div_ofNat _ _ _ (List.length_pos_iff.mpr hl)

theorem mean_newUnit (a b : ℝ) (l : List F) : mean (l.map (newUnit a b)) = newUnit a b (mean l) := by
  rw [newUnit_split, ← mean_newUnit0, ← mean_shift, List.map_map]
  congr 1
  apply List.map_congr_left
  intro x _
  exact newUnit_split a b x

theorem sq_abs_newUnit {a : ℝ} (ha : 0 < a) (x : F) : sq (F.abs (newUnit a 0 x)) = newUnit (a ^ 2) 0 (sq (F.abs x)) := by
  cases x with
  | nan => rfl
  | ninf => rfl
  | pinf => rfl
  | fin r => simp [mul_pow]

theorem sqrt_newUnit {a : ℝ} (ha : 0 < a) (x : F) : F.sqrt (newUnit (a ^ 2) 0 x) = newUnit a 0 (F.sqrt x) := by
  cases x with
  | nan => rfl
  | ninf => rfl
  | pinf => rfl
  | fin r =>
    rcases lt_or_ge r 0 with h | h
    · simp [F.sqrt, h, mul_neg_of_pos_of_neg (pow_pos ha 2) h]
    · rw [newUnit_fin, add_zero, sqrt_fin _ (mul_nonneg (pow_pos ha 2).le h), sqrt_fin _ h, newUnit_fin, add_zero,
        Real.sqrt_mul (pow_pos ha 2).le, Real.sqrt_sq ha.le]

theorem std_newUnit {a : ℝ} (ha : 0 < a) (b : ℝ) (l : List F) : F.std (l.map (newUnit a b)) = newUnit a 0 (F.std l) := by
  unfold F.std
  simp only
  rw [mean_newUnit, ← sqrt_newUnit ha, ← mean_newUnit0, List.map_map, List.map_map]
  congr 2
  apply List.map_congr_left
  intro x _
  simp only [Function.comp]
  rw [newUnit_sub, sq_abs_newUnit ha]

theorem sum_ofFn_add (f : Fin d → F) (k : Fin d → ℝ) :
    sum (List.ofFn fun i => f i + fin (k i)) = sum (List.ofFn f) + fin (∑ i, k i) := by
  induction d with
  | zero => simp
  | succ d ih =>
    rw [List.ofFn_succ, List.ofFn_succ, sum_cons, sum_cons, ih (fun i => f i.succ) (fun i => k i.succ), Fin.sum_univ_succ,
      ← fin_add, add_add_add_comm]

/-! ### one coordinate -/

theorem createMasks_units (a b : ℝ) (low high : F) : createMasks (newUnit a b low) (newUnit a b high) = createMasks low high := by
  simp only [createMasks, newUnit_isfinite]

theorem innerChange_pos {a : ℝ} (ha : 0 < a) (b : ℝ) (low high : F) : 0 < (innerChange a b low high).1 := by
  unfold innerChange
  split <;> first | exact ha | exact one_pos

theorem fwdBoth_units {a : ℝ} (ha : 0 < a) (b : ℝ) (t : Transform) (low high x : F) :
    fwdBoth t (newUnit a b low) (newUnit a b high) (newUnit a b x) = fwdBoth t low high x := by
  unfold fwdBoth
  rw [newUnit_sub, newUnit_sub, newUnit_div ha]

theorem fwdCoord_units {a : ℝ} (ha : 0 < a) (b : ℝ) (t : Transform) (low high x : F) :
    fwdCoord t (newUnit a b low) (newUnit a b high) (newUnit a b x) =
      newUnit (innerChange a b low high).1 (innerChange a b low high).2 (fwdCoord t low high x) := by
  unfold fwdCoord
  rw [createMasks_units]
  unfold createMasks innerChange fwdLeft fwdRight
  rw [newUnit_sub, newUnit_sub, log_newUnit ha, log_newUnit ha, fwdBoth_units ha]
  cases low.isfinite <;> cases high.isfinite <;> simp [newUnit_one]
  exact (add_zero (fwdBoth t low high x)).symm

/-- The part of the log-volume of one parameter that comes from the inverse transformation, not from the standardisation. -/
noncomputable def innerLog (a : ℝ) (low high : F) : ℝ := if low.isfinite || high.isfinite then Real.log a else 0

theorem innerLog_add (a b : ℝ) (low high : F) :
    Real.log (innerChange a b low high).1 + innerLog a low high = Real.log a := by
  unfold innerChange innerLog
  cases low.isfinite <;> cases high.isfinite <;> simp

theorem invBoth_units {a : ℝ} (ha : 0 < a) (b : ℝ) (t : Transform) (low high u : F) :
    invBoth t (newUnit a b low) (newUnit a b high) u =
      (newUnit a b (invBoth t low high u).1, (invBoth t low high u).2 + fin (Real.log a)) := by
  unfold invBoth
  cases t with
  | logit =>
    simp only
    rw [newUnit_sub, mul_newUnit ha, newUnit_add, log_newUnit ha]
    congr 1
    rw [add_right_comm (log (high - low)), add_right_comm (log (high - low) + _)]
  | probit =>
    simp only
    rw [newUnit_sub, mul_newUnit ha, newUnit_add, log_newUnit ha]
    congr 1
    rw [add_right_comm (log (high - low)), add_fin_sub]

theorem invCoord_units {a : ℝ} (ha : 0 < a) (b : ℝ) (t : Transform) (low high u : F) :
    invCoord t (newUnit a b low) (newUnit a b high)
        (newUnit (innerChange a b low high).1 (innerChange a b low high).2 u) =
      (newUnit a b (invCoord t low high u).1, (invCoord t low high u).2 + fin (innerLog a low high)) := by
  unfold invCoord
  rw [createMasks_units]
  unfold createMasks innerChange innerLog
  cases low.isfinite <;> cases high.isfinite
  · simp
  · simp only [newUnit_one, invRight, exp_add_log ha, newUnit_sub']
    simp
  · simp only [newUnit_one, invLeft, exp_add_log ha, newUnit_add]
    simp
  · simp only [newUnit_id, invBoth_units ha]
    simp

/-! ### the scaler -/

theorem back_point (U : Units d) (x : Pt d) : U.back (U.point x) = x := by
  funext j
  exact newUnit_back (U.pos j) _ _

theorem map_back_point (U : Units d) (xs : List (Pt d)) : (xs.map U.point).map U.back = xs := by
  rw [List.map_map]
  conv_rhs => rw [← List.map_id xs]
  apply List.map_congr_left
  intro x _
  exact back_point U x

theorem withinInterval_units (U : Units d) (low high : Fin d → F) (xs : List (Pt d)) :
    withinInterval (U.point low) (U.point high) (xs.map U.point) = withinInterval low high xs := by
  unfold withinInterval
  rw [List.all_map]
  congr 1
  funext row
  simp only [Function.comp]
  congr 1
  apply propext
  apply forall_congr'
  intro i
  have e1 : (if (U.point low i).isnan then ninf else U.point low i)
      = newUnit (U.factor i) (U.offset i) (if (low i).isnan then ninf else low i) := by
    unfold Units.point
    rw [newUnit_isnan]
    split <;> rfl
  have e2 : (if (U.point high i).isnan then pinf else U.point high i)
      = newUnit (U.factor i) (U.offset i) (if (high i).isnan then pinf else high i) := by
    unfold Units.point
    rw [newUnit_isnan]
    split <;> rfl
  rw [e1, e2]
  unfold Units.point
  rw [newUnit_le (U.pos i), newUnit_le (U.pos i)]

/-- The unbounded coordinates (before standardisation) in the new units. -/
noncomputable def innerPoint (U : Units d) (s : Scaler d) (u : Pt d) : Pt d := fun j =>
  newUnit (innerChange (U.factor j) (U.offset j) (s.low j) (s.high j)).1
    (innerChange (U.factor j) (U.offset j) (s.low j) (s.high j)).2 (u j)

theorem fwdRow_units (U : Units d) (s : Scaler d) (x : Pt d) :
    (unitsScaler U s).fwdRow (U.point x) = innerPoint U s (s.fwdRow x) := by
  funext j
  exact fwdCoord_units (U.pos j) _ _ _ _ _

theorem invRow_units (U : Units d) (s : Scaler d) (u : Pt d) :
    (unitsScaler U s).invRow (innerPoint U s u) =
      (U.point (s.invRow u).1, (s.invRow u).2 + fin (∑ j, innerLog (U.factor j) (s.low j) (s.high j))) := by
  unfold Scaler.invRow
  have h : ∀ j, invCoord (unitsScaler U s).transform ((unitsScaler U s).low j) ((unitsScaler U s).high j) (innerPoint U s u j)
      = _ := fun j => invCoord_units (U.pos j) (U.offset j) s.transform (s.low j) (s.high j) (u j)
  simp only [h]
  rw [sum_ofFn_add]
  rfl

theorem affine_forward_units (U : Units d) (s : Scaler d) (mu sigma : Fin d → F) (u : Pt d) :
    (unitsAffine U s.low s.high (.diag mu sigma)).forward (innerPoint U s u) = (Affine.diag mu sigma).forward u := by
  funext j
  show (_ - _) / _ = (_ - _) / _
  unfold innerPoint
  rw [newUnit_sub, newUnit_div (innerChange_pos (U.pos j) _ _ _)]

theorem affine_inverse_units (U : Units d) (s : Scaler d) (mu sigma : Fin d → F) (u : Pt d) :
    (unitsAffine U s.low s.high (.diag mu sigma)).inverse u =
      (innerPoint U s ((Affine.diag mu sigma).inverse u).1, ((Affine.diag mu sigma).inverse u).2 +
        fin (∑ j, Real.log (innerChange (U.factor j) (U.offset j) (s.low j) (s.high j)).1)) := by
  simp only [Affine.inverse, unitsAffine]
  congr 1
  · funext j
    unfold innerPoint
    rw [newUnit_mul (innerChange_pos (U.pos j) _ _ _), F.add_comm', newUnit_add, F.add_comm']
  · rw [← sum_ofFn_add]
    congr 2
    funext j
    exact log_newUnit (innerChange_pos (U.pos j) _ _ _) _

theorem logVolume_eq (U : Units d) (s : Scaler d) :
    (∑ j, Real.log (innerChange (U.factor j) (U.offset j) (s.low j) (s.high j)).1) +
      ∑ j, innerLog (U.factor j) (s.low j) (s.high j) = U.logVolume := by
  rw [← Finset.sum_add_distrib]
  exact Finset.sum_congr rfl fun j _ => innerLog_add _ _ _ _

section
variable {U : Units d} {s : Scaler d} (hs : Diagonal s)
include hs

theorem forwardRow_units (x : Pt d) : (unitsScaler U s).forwardRow (U.point x) = s.forwardRow x := by
  unfold Scaler.forwardRow
  rw [show (unitsScaler U s).scale = s.scale from rfl, if_pos hs.1, if_pos hs.1]
  have : (unitsScaler U s).affine = s.affine.map (unitsAffine U s.low s.high) := rfl
  rw [this]
  cases h : s.affine with
  | none => rfl
  | some a =>
    cases a with
    | full mu L Linv ld => exact absurd h (hs.2 _ _ _ _)
    | diag mu sigma =>
      simp only [Option.map_some]
      rw [fwdRow_units, affine_forward_units]

theorem inverseRow_units (u : Pt d) :
    (unitsScaler U s).inverseRow u = (s.inverseRow u).map fun r => (U.point r.1, r.2 + fin U.logVolume) := by
  unfold Scaler.inverseRow
  rw [show (unitsScaler U s).scale = s.scale from rfl, if_pos hs.1, if_pos hs.1]
  have : (unitsScaler U s).affine = s.affine.map (unitsAffine U s.low s.high) := rfl
  rw [this]
  cases h : s.affine with
  | none => rfl
  | some a =>
    cases a with
    | full mu L Linv ld => exact absurd h (hs.2 _ _ _ _)
    | diag mu sigma =>
      simp only [Option.map_some]
      rw [affine_inverse_units]
      simp only [invRow_units, Except.map]
      rw [add_add_add_comm, fin_add, logVolume_eq]

theorem inverse_units (us : List (Pt d)) :
    (unitsScaler U s).inverse us = (s.inverse us).map (List.map fun r => (U.point r.1, r.2 + fin U.logVolume)) := by
  unfold Scaler.inverse
  have := mapM_map_map s.inverseRow (unitsScaler U s).inverseRow id (fun r => (U.point r.1, r.2 + fin U.logVolume))
    (fun u => inverseRow_units hs u) us
  rwa [List.map_id] at this

theorem forward_units (xs : List (Pt d)) : (unitsScaler U s).forward (xs.map U.point) = s.forward xs := by
  unfold Scaler.forward
  have h1 : withinInterval (unitsScaler U s).low (unitsScaler U s).high (xs.map U.point) = withinInterval s.low s.high xs :=
    withinInterval_units U s.low s.high xs
  have h2 := mapM_map_map s.forwardRow (unitsScaler U s).forwardRow U.point id (fun x => by
    rw [forwardRow_units hs]; cases s.forwardRow x <;> rfl) xs
  rw [h1, h2]
  split
  · rfl
  · cases xs.mapM s.forwardRow <;> simp [Except.map]

end

theorem fit_units (U : Units d) (s : Scaler d) (xs : List (Pt d)) :
    (unitsScaler U s).fit (xs.map U.point) = (s.fit xs).map (unitsScaler U) := by
  unfold Scaler.fit
  have h1 : withinInterval (unitsScaler U s).low (unitsScaler U s).high (xs.map U.point) = withinInterval s.low s.high xs :=
    withinInterval_units U s.low s.high xs
  rw [h1]
  split
  · rfl
  · simp only [Except.map]
    congr 1
    have h2 : (xs.map U.point).map (unitsScaler U s).fwdRow = (xs.map s.fwdRow).map (innerPoint U s) := by
      rw [List.map_map, List.map_map]
      apply List.map_congr_left
      intro x _
      exact fwdRow_units U s x
    rw [h2]
    have h3 : ∀ j, ((xs.map s.fwdRow).map (innerPoint U s)).map (fun u => u j) = ((xs.map s.fwdRow).map fun u => u j).map
        (newUnit (innerChange (U.factor j) (U.offset j) (s.low j) (s.high j)).1
          (innerChange (U.factor j) (U.offset j) (s.low j) (s.high j)).2) := by
      intro j
      rw [List.map_map (l := xs.map s.fwdRow), List.map_map (l := xs.map s.fwdRow)]
      rfl
    simp only [h3, mean_newUnit, std_newUnit (innerChange_pos (U.pos _) _ _ _)]
    rfl

/-! ### boundary conditions -/

theorem whileFuel_units (φ : F → F) {c c' : F → Prop} [DecidablePred c] [DecidablePred c'] {f f' : F → F}
    (hc : ∀ x, c' (φ x) ↔ c x) (hf : ∀ x, f' (φ x) = φ (f x)) (n : ℕ) :
    ∀ x, whileFuel c' f' n (φ x) = (whileFuel c f n x).map φ := by
  induction n with
  | zero =>
    intro x
    unfold whileFuel
    by_cases h : c x
    · rw [if_pos h, if_pos ((hc x).mpr h)]; rfl
    · rw [if_neg h, if_neg (fun h' => h ((hc x).mp h'))]; rfl
  | succ n ih =>
    intro x
    unfold whileFuel
    by_cases h : c x
    · rw [if_pos h, if_pos ((hc x).mpr h), hf, ih]
    · rw [if_neg h, if_neg (fun h' => h ((hc x).mp h'))]; rfl

theorem periodicEntry_units {a : ℝ} (ha : 0 < a) (b : ℝ) (fuel : ℕ) (low high x : F) :
    periodicEntry fuel (newUnit a b low) (newUnit a b high) (newUnit a b x) =
      (periodicEntry fuel low high x).map (newUnit a b) := by
  unfold periodicEntry
  have h1 := whileFuel_units (newUnit a b) (c := fun x => x > high) (c' := fun x => x > newUnit a b high)
    (f := fun x => low + x - high) (f' := fun x => newUnit a b low + x - newUnit a b high)
    (fun x => newUnit_lt ha b high x) (fun x => newUnit_add_sub a b low x high) fuel x
  have h2 := whileFuel_units (newUnit a b) (c := fun x => x < low) (c' := fun x => x < newUnit a b low)
    (f := fun x => high + x - low) (f' := fun x => newUnit a b high + x - newUnit a b low)
    (fun x => newUnit_lt ha b x low) (fun x => newUnit_add_sub a b high x low) fuel
  simp only [bind, Option.bind]
  rw [h1]
  cases whileFuel (fun x => x > high) (fun x => low + x - high) fuel x with
  | none => rfl
  | some y => exact h2 y

theorem reflectiveEntry_units {a : ℝ} (ha : 0 < a) (b : ℝ) (fuel : ℕ) (low high x : F) :
    reflectiveEntry fuel (newUnit a b low) (newUnit a b high) (newUnit a b x) =
      (reflectiveEntry fuel low high x).map (newUnit a b) := by
  unfold reflectiveEntry
  have h1 := whileFuel_units (newUnit a b) (c := fun x => x > high) (c' := fun x => x > newUnit a b high)
    (f := fun x => high - x + high) (f' := fun x => newUnit a b high - x + newUnit a b high)
    (fun x => newUnit_lt ha b high x) (fun x => newUnit_sub_add a b high x high) fuel x
  have h2 := whileFuel_units (newUnit a b) (c := fun x => x < low) (c' := fun x => x < newUnit a b low)
    (f := fun x => low + low - x) (f' := fun x => newUnit a b low + newUnit a b low - x)
    (fun x => newUnit_lt ha b x low) (fun x => newUnit_add_sub a b low low x) fuel
  simp only [bind, Option.bind]
  rw [h1]
  cases whileFuel (fun x => x > high) (fun x => high - x + high) fuel x with
  | none => rfl
  | some y => exact h2 y

theorem applyCoords_units (U : Units d) {f f' : Fin d → F → Option F}
    (h : ∀ i x, f' i (newUnit (U.factor i) (U.offset i) x) = (f i x).map (newUnit (U.factor i) (U.offset i)))
    (is : List (Fin d)) : ∀ x, applyCoords f' is (U.point x) = (applyCoords f is x).map U.point := by
  induction is with
  | nil => intro x; rfl
  | cons i is ih =>
    intro x
    unfold applyCoords
    have h1 : f' i (U.point x i) = (f i (x i)).map (newUnit (U.factor i) (U.offset i)) := h i (x i)
    rw [h1]
    cases f i (x i) with
    | none => rfl
    | some y =>
      simp only [Option.map_some]
      rw [← ih]
      congr 1
      funext j
      unfold Units.point
      by_cases hj : j = i
      · subst hj; simp
      · simp [Function.update_of_ne hj]

theorem boundaryRow_units (U : Units d) (s : Scaler d) (fuel : ℕ) (x : Pt d) :
    (unitsScaler U s).boundaryRow fuel (U.point x) = (s.boundaryRow fuel x).map U.point := by
  have hp : ∀ x, (unitsScaler U s).periodicRow fuel (U.point x) = (s.periodicRow fuel x).map U.point := by
    intro x
    unfold Scaler.periodicRow
    rw [show (unitsScaler U s).periodic = s.periodic from rfl]
    cases s.periodic with
    | none => rfl
    | some is => exact applyCoords_units U (fun i x => periodicEntry_units (U.pos i) _ _ _ _ _) is x
  have hr : ∀ x, (unitsScaler U s).reflectiveRow fuel (U.point x) = (s.reflectiveRow fuel x).map U.point := by
    intro x
    unfold Scaler.reflectiveRow
    rw [show (unitsScaler U s).reflective = s.reflective from rfl]
    cases s.reflective with
    | none => rfl
    | some is => exact applyCoords_units U (fun i x => reflectiveEntry_units (U.pos i) _ _ _ _ _) is x
  unfold Scaler.boundaryRow
  rw [show (unitsScaler U s).periodic = s.periodic from rfl, show (unitsScaler U s).reflective = s.reflective from rfl]
  cases s.periodic <;> cases s.reflective
  · rfl
  · exact hr x
  · exact hp x
  · simp only [hp]
    cases s.periodicRow fuel x with
    | none => rfl
    | some y => exact hr y

end Poco
