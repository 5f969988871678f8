import Verif.Lemmas.Scaler
import Mathlib.Tactic.NormNum
import Mathlib.Algebra.Order.Archimedean.Real.Basic

/-! # C34-C43: the reparameterisation -/

namespace Poco
open F Spec

variable {d : ℕ}

/-! ### helpers -/

theorem mapM_ok {α β : Type} (f : α → Except PyErr β) (g : α → β) (l : List α) (h : ∀ a ∈ l, f a = .ok (g a)) :
    l.mapM f = .ok (l.map g) := by
  induction l with
  | nil => rfl
  | cons a l ih =>
    rw [List.mapM_cons, h a List.mem_cons_self, ih fun b hb => h b (List.mem_cons_of_mem _ hb)]
    rfl

theorem withinInterval_iff (low high : Fin d → F) (x : List (Pt d)) :
    withinInterval low high x = true ↔ ∀ row ∈ x, ∀ i, (if (low i).isnan then ninf else low i) ≤ row i ∧
      row i ≤ (if (high i).isnan then pinf else high i) := by
  simp [withinInterval]

theorem within_of_strict {low high : Fin d → F} (hb : ProperBounds low high) {x : Fin d → ℝ}
    (hx : StrictlyInside low high x) (i : Fin d) :
    (if (low i).isnan then ninf else low i) ≤ pt x i ∧ pt x i ≤ (if (high i).isnan then pinf else high i) := by
  obtain ⟨h1, h2, -⟩ := hb i
  obtain ⟨h3, h4⟩ := hx i
  unfold pt
  constructor
  · cases hl : low i with
    | nan => exact trivial
    | ninf => exact trivial
    | pinf => exact absurd hl h1
    | fin l => exact (h3 l hl).le
  · cases hl : high i with
    | nan => exact trivial
    | pinf => exact trivial
    | ninf => exact absurd hl h2
    | fin l => exact (h4 l hl).le

theorem withinInterval_strict {low high : Fin d → F} (hb : ProperBounds low high) (xs : List (Fin d → ℝ))
    (hx : ∀ x ∈ xs, StrictlyInside low high x) : withinInterval low high (xs.map pt) = true := by
  rw [withinInterval_iff]
  intro row hrow
  obtain ⟨x, hxm, rfl⟩ := List.mem_map.mp hrow
  exact within_of_strict hb (hx x hxm)

/-! ### a scaler with every bound type, used as the concrete case -/

/-- Bounds [0,1], (-inf,2], [-1,inf), none; probit; fitted. -/
noncomputable def exampleScaler : Scaler 4 :=
  { Scaler.init 4 (some (![fin 0, nan, fin (-1), ninf], ![fin 1, fin 2, pinf, nan])) (some [0]) none .probit with
    affine := some (.diag (fun _ => fin 3) (fun _ => fin 2)) }

theorem exampleScaler_ok : exampleScaler.Ok := by
  refine ⟨?_, fun _ => ⟨_, rfl, fun _ => 3, fun _ => 2, rfl, rfl, fun _ => two_pos⟩⟩
  intro i
  fin_cases i <;> simp [exampleScaler, Scaler.init] <;> intros <;> subst_vars <;> norm_num

/-- A fitted non-diagonal scaler: L = [[1,0],[1,2]]. -/
noncomputable def exampleFull : Scaler 2 :=
  { Scaler.init 2 (some (fun _ => fin 0, fun _ => fin 1)) none none .logit with
    affine := some (.full (fun _ => fin 0) (fun i j => fin (!![(1:ℝ), 0; 1, 2] i j))
      (fun i j => fin (!![(1:ℝ), 0; -1/2, 1/2] i j)) (fin (Real.log 2))) }

theorem exampleFull_ok : exampleFull.Ok := by
  refine ⟨?_, fun _ => ⟨_, rfl, fun _ => 0, !![(1:ℝ), 0; 1, 2], !![(1:ℝ), 0; -1/2, 1/2], rfl, rfl, rfl, ?_, ?_⟩⟩
  · intro i
    simp only [exampleFull, Scaler.init, Option.getD_some]
    refine ⟨by simp, by simp, ?_⟩
    intro l h hl hh
    simp only [fin_inj] at hl hh
    subst hl; subst hh; norm_num
  · rw [Matrix.mul_fin_two, Matrix.one_fin_two]; norm_num
  · simp [Matrix.det_fin_two]

/-! ### C34 -/

/-- **C34.** With any usable scaler, `inverse(forward(x))` gives back `x` for every batch strictly inside the bounds
(which `forward` accepts), and `forward(inverse(u))` gives back `u` for every batch of finite `u`. -/
theorem C34_round_trip (s : Scaler d) (hs : s.Ok) :
    (∀ xs : List (Fin d → ℝ), (∀ x ∈ xs, StrictlyInside s.low s.high x) →
      ∃ us rows, s.forward (xs.map pt) = .ok us ∧ s.inverse us = .ok rows ∧ rows.map (·.1) = xs.map pt) ∧
    (∀ us : List (Fin d → ℝ),
      ∃ rows, s.inverse (us.map pt) = .ok rows ∧ s.forward (rows.map (·.1)) = .ok (us.map pt)) := by
  obtain ⟨G, Fw, J, h1, h2, h3, h4, h5, h6⟩ := hs.real
  constructor
  · intro xs hxs
    refine ⟨(xs.map Fw).map pt, xs.map fun x => (pt (G (Fw x)), fin (Real.log |(J (Fw x)).det|)), ?_, ?_, ?_⟩
    · unfold Scaler.forward
      rw [withinInterval_strict hs.1 xs hxs]
      simp only [Bool.not_true, Bool.and_false, Bool.false_eq_true, if_false]
      rw [List.mapM_map, List.map_map]
      exact mapM_ok _ _ _ fun x hx => (h5 x (hxs x hx)).1
    · unfold Scaler.inverse
      rw [List.map_map, List.mapM_map]
      exact mapM_ok _ _ _ fun x hx => h1 (Fw x)
    · rw [List.map_map]
      apply List.map_congr_left
      intro x hx
      simp only [Function.comp]
      rw [(h5 x (hxs x hx)).2]
  · intro us
    refine ⟨us.map fun u => (pt (G u), fin (Real.log |(J u).det|)), ?_, ?_⟩
    · unfold Scaler.inverse
      rw [List.mapM_map]
      exact mapM_ok _ _ _ fun u _ => h1 u
    · have e : (us.map fun u => (pt (G u), fin (Real.log |(J u).det|))).map (·.1) = (us.map G).map pt := by simp
      rw [e]
      unfold Scaler.forward
      rw [withinInterval_strict hs.1 _ (by
        intro x hx
        obtain ⟨u, -, rfl⟩ := List.mem_map.mp hx
        exact h4 u)]
      simp only [Bool.not_true, Bool.and_false, Bool.false_eq_true, if_false]
      rw [List.mapM_map, List.mapM_map]
      refine mapM_ok _ _ _ fun u _ => ?_
      show s.forwardRow (pt (G u)) = _
      have := (h5 (G u) (h4 u)).1
      rw [h6 u] at this
      exact this

example : StrictlyInside exampleScaler.low exampleScaler.high ![1/2, 0, 0, 7] := by
  intro i
  fin_cases i <;> simp [exampleScaler, Scaler.init] <;> norm_num

/-! ### C35 -/

/-- **C35.** There is a real map `G` that `inverse` computes on finite points, it is differentiable everywhere with
some Jacobian matrix `J u`, invertible, and the reported log-determinant is `log |det J u|`. -/
theorem C35_jacobian (s : Scaler d) (hs : s.Ok) :
    ∃ (G : (Fin d → ℝ) → (Fin d → ℝ)) (J : (Fin d → ℝ) → Matrix (Fin d) (Fin d) ℝ),
      (∀ u, s.inverseRow (pt u) = .ok (pt (G u), fin (Real.log |(J u).det|))) ∧
      (∀ u, HasFDerivAt G (LinearMap.toContinuousLinearMap (Matrix.toLin' (J u))) u) ∧
      (∀ u, (J u).det ≠ 0) ∧
      (∀ us : List (Fin d → ℝ),
        s.inverse (us.map pt) = .ok (us.map fun u => (pt (G u), fin (Real.log |(J u).det|)))) := by
  obtain ⟨G, Fw, J, h1, h2, h3, -⟩ := hs.real
  refine ⟨G, J, h1, h2, h3, ?_⟩
  intro us
  unfold Scaler.inverse
  rw [List.mapM_map]
  exact mapM_ok _ _ _ fun u _ => h1 u

/-! ### C36 -/

/-- **C36.** Every finite `u` is mapped by `inverse` to a finite point strictly inside the bounds. -/
theorem C36_inverse_inside (s : Scaler d) (hs : s.Ok) (u : Fin d → ℝ) :
    ∃ (x : Fin d → ℝ) (ld : ℝ), s.inverseRow (pt u) = .ok (pt x, fin ld) ∧ StrictlyInside s.low s.high x := by
  obtain ⟨G, Fw, J, h1, h2, h3, h4, -⟩ := hs.real
  exact ⟨G u, _, h1 u, h4 u⟩

example := C36_inverse_inside exampleScaler exampleScaler_ok ![1, 2, 3, 4]
example := C35_jacobian exampleFull exampleFull_ok

/-! ### C37 -/

/-- **C37.** Each parameter gets exactly one type, determined by which of its bounds are finite. -/
theorem C37_masks (low high : F) :
    let m := createMasks low high
    ((m.none = true ↔ ¬(∃ l, low = fin l) ∧ ¬(∃ h, high = fin h)) ∧
     (m.left = true ↔ (∃ l, low = fin l) ∧ ¬(∃ h, high = fin h)) ∧
     (m.right = true ↔ ¬(∃ l, low = fin l) ∧ (∃ h, high = fin h)) ∧
     (m.both = true ↔ (∃ l, low = fin l) ∧ (∃ h, high = fin h))) ∧
    [m.none, m.left, m.right, m.both].count true = 1 := by
  cases low <;> cases high <;> simp [createMasks, isfinite]

/-! ### C38 -/

section
variable {l h : ℝ}

theorem whileFuel_false {cond : F → Prop} [DecidablePred cond] {body : F → F} {x : F} (hx : ¬ cond x) (fuel : ℕ) :
    whileFuel cond body fuel x = some x := by
  cases fuel <;> simp [whileFuel, hx]

theorem whileFuel_true {cond : F → Prop} [DecidablePred cond] {body : F → F} {x : F} (hx : cond x) (fuel : ℕ) :
    whileFuel cond body (fuel + 1) x = whileFuel cond body fuel (body x) := by
  simp [whileFuel, hx]

theorem wrap_down (hlh : l < h) (n : ℕ) (x : ℝ) (hx : x ≤ h + n * (h - l)) :
    ∃ k ≤ n, x - k * (h - l) ≤ h ∧ (k = 0 ∨ l < x - k * (h - l)) ∧
      ∀ fuel ≥ n, whileFuel (fun x => x > fin h) (fun x => fin l + x - fin h) fuel (fin x)
        = some (fin (x - k * (h - l))) := by
  induction n generalizing x with
  | zero =>
    have hx' : x ≤ h := by simpa using hx
    refine ⟨0, le_refl _, by simpa using hx', Or.inl rfl, fun fuel _ => ?_⟩
    rw [whileFuel_false (by simpa using hx')]; simp
  | succ n ih =>
    by_cases hc : x ≤ h
    · refine ⟨0, Nat.zero_le _, by simpa using hc, Or.inl rfl, fun fuel _ => ?_⟩
      rw [whileFuel_false (by simpa using hc)]; simp
    · push Not at hc
      push_cast at hx
      obtain ⟨k, hk, h1, h2, h3⟩ := ih (l + x - h) (by nlinarith)
      refine ⟨k + 1, by omega, by push_cast; linarith, Or.inr ?_, fun fuel hf => ?_⟩
      · push_cast
        rcases h2 with h2 | h2
        · subst h2; simp; linarith
        · linarith
      · obtain ⟨f, rfl⟩ : ∃ f, fuel = f + 1 := ⟨fuel - 1, by omega⟩
        rw [whileFuel_true (by simpa using hc), fin_add, fin_sub, h3 f (by omega)]
        congr 2; push_cast; ring

theorem wrap_up (hlh : l < h) (n : ℕ) (x : ℝ) (hx : l - n * (h - l) ≤ x) :
    ∃ k ≤ n, l ≤ x + k * (h - l) ∧ (k = 0 ∨ x + k * (h - l) < h) ∧
      ∀ fuel ≥ n, whileFuel (fun x => x < fin l) (fun x => fin h + x - fin l) fuel (fin x)
        = some (fin (x + k * (h - l))) := by
  induction n generalizing x with
  | zero =>
    have hx' : l ≤ x := by simpa using hx
    refine ⟨0, le_refl _, by simpa using hx', Or.inl rfl, fun fuel _ => ?_⟩
    rw [whileFuel_false (by simpa using hx')]; simp
  | succ n ih =>
    by_cases hc : l ≤ x
    · refine ⟨0, Nat.zero_le _, by simpa using hc, Or.inl rfl, fun fuel _ => ?_⟩
      rw [whileFuel_false (by simpa using hc)]; simp
    · push Not at hc
      push_cast at hx
      obtain ⟨k, hk, h1, h2, h3⟩ := ih (h + x - l) (by nlinarith)
      refine ⟨k + 1, by omega, by push_cast; linarith, Or.inr ?_, fun fuel hf => ?_⟩
      · push_cast
        rcases h2 with h2 | h2
        · subst h2; simp; linarith
        · linarith
      · obtain ⟨f, rfl⟩ : ∃ f, fuel = f + 1 := ⟨fuel - 1, by omega⟩
        rw [whileFuel_true (by simpa using hc), fin_add, fin_sub, h3 f (by omega)]
        congr 2; push_cast; ring

/-- One periodic entry. -/
theorem periodicEntry_ok (hlh : l < h) (x : ℝ) :
    ∃ N, ∃ y : ℝ, (∀ fuel ≥ N, periodicEntry fuel (fin l) (fin h) (fin x) = some (fin y)) ∧ l ≤ y ∧ y ≤ h ∧
      ∃ k : ℤ, y = x + k * (h - l) := by
  have hw : 0 < h - l := by linarith
  obtain ⟨n, hn⟩ := exists_nat_ge ((x - h) / (h - l))
  rw [div_le_iff₀ hw] at hn
  obtain ⟨k, hk, h1, h2, h3⟩ := wrap_down hlh n x (by linarith)
  obtain ⟨m, hm⟩ := exists_nat_ge ((l - (x - k * (h - l))) / (h - l))
  rw [div_le_iff₀ hw] at hm
  obtain ⟨k', hk', h1', h2', h3'⟩ := wrap_up hlh m (x - k * (h - l)) (by linarith)
  refine ⟨max n m, x - k * (h - l) + k' * (h - l), ?_, h1', ?_, (k' : ℤ) - k, ?_⟩
  · intro fuel hf
    unfold periodicEntry
    rw [h3 fuel (le_trans (le_max_left _ _) hf)]
    exact h3' fuel (le_trans (le_max_right _ _) hf)
  · rcases h2' with h2' | h2'
    · subst h2'; simpa using h1
    · exact h2'.le
  · push_cast; ring

theorem periodicEntry_inside (x : ℝ) (h1 : l ≤ x) (h2 : x ≤ h) (fuel : ℕ) :
    periodicEntry fuel (fin l) (fin h) (fin x) = some (fin x) := by
  unfold periodicEntry
  rw [whileFuel_false (by simpa using h2)]
  exact whileFuel_false (by simpa using h1) _

end

/-- Applying an entrywise operation that always ends, at the listed coordinates. -/
theorem applyCoords_ok (f : ℕ → Fin d → F → Option F) (R : Fin d → ℝ → ℝ → Prop) (Q : Fin d → ℝ → Prop)
    (is : List (Fin d))
    (hf : ∀ i ∈ is, ∀ x : ℝ, ∃ N, ∃ y : ℝ, (∀ fuel ≥ N, f fuel i (fin x) = some (fin y)) ∧ R i x y ∧ Q i y)
    (hrefl : ∀ i x, R i x x)
    (htrans : ∀ i x y z, R i x y → R i y z → R i x z)
    (x : Pt d) (hx : ∀ i ∈ is, ∃ r, x i = fin r) :
    ∃ N, ∃ y : Pt d, (∀ fuel ≥ N, applyCoords (f fuel) is x = some y) ∧
      (∀ i, i ∉ is → y i = x i) ∧ ∀ i ∈ is, ∃ a b, x i = fin a ∧ y i = fin b ∧ R i a b ∧ Q i b := by
  induction is generalizing x with
  | nil => exact ⟨0, x, fun _ _ => rfl, fun _ _ => rfl, fun i hi => absurd hi (by simp)⟩
  | cons j is ih =>
    obtain ⟨a, ha⟩ := hx j List.mem_cons_self
    obtain ⟨N, b, hb, hR, hQ⟩ := hf j List.mem_cons_self a
    obtain ⟨N', y, h1, h2, h3⟩ := ih (fun i hi => hf i (List.mem_cons_of_mem _ hi)) (Function.update x j (fin b)) (by
      intro i hi
      by_cases hij : i = j
      · subst hij; exact ⟨b, by simp⟩
      · rw [Function.update_of_ne hij]; exact hx i (List.mem_cons_of_mem _ hi))
    refine ⟨max N N', y, ?_, ?_, ?_⟩
    · intro fuel hfuel
      simp only [applyCoords, ha, hb fuel (le_trans (le_max_left _ _) hfuel)]
      exact h1 fuel (le_trans (le_max_right _ _) hfuel)
    · intro i hi
      simp only [List.mem_cons, not_or] at hi
      rw [h2 i hi.2, Function.update_of_ne hi.1]
    · intro i hi
      by_cases hij : i = j
      · subst hij
        by_cases him : i ∈ is
        · obtain ⟨a', b', e1, e2, e3, e4⟩ := h3 i him
          rw [Function.update_self] at e1
          have : b = a' := by simpa using e1
          subst this
          exact ⟨a, b', ha, e2, htrans _ _ _ _ hR e3, e4⟩
        · exact ⟨a, b, ha, by rw [h2 i him, Function.update_self], hR, hQ⟩
      · have him : i ∈ is := by simpa [hij] using hi
        obtain ⟨a', b', e1, e2, e3, e4⟩ := h3 i him
        rw [Function.update_of_ne hij] at e1
        exact ⟨a', b', e1, e2, e3, e4⟩

theorem applyCoords_id (f : Fin d → F → Option F) (is : List (Fin d)) (x : Pt d)
    (hf : ∀ i ∈ is, f i (x i) = some (x i)) : applyCoords f is x = some x := by
  induction is with
  | nil => rfl
  | cons i is ih =>
    simp only [applyCoords, hf i List.mem_cons_self, Function.update_eq_self]
    exact ih fun j hj => hf j (List.mem_cons_of_mem _ hj)

/-- **C38.** Periodic wrapping of a point with finite listed entries terminates (the loops need at most `N` turns) with
a point `y` whose listed entries are inside their bounds and an integer number of periods away from the original ones,
whose other entries are untouched, and on which wrapping changes nothing. -/
theorem C38_periodic (s : Scaler d) (is : List (Fin d)) (hs : s.periodic = some is) (l h : Fin d → ℝ)
    (hb : ∀ i ∈ is, s.low i = fin (l i) ∧ s.high i = fin (h i) ∧ l i < h i)
    (x : Pt d) (hx : ∀ i ∈ is, ∃ r, x i = fin r) :
    ∃ N, ∃ y : Pt d, (∀ fuel ≥ N, s.periodicRow fuel x = some y) ∧
      (∀ i, i ∉ is → y i = x i) ∧
      (∀ i ∈ is, ∃ a b, x i = fin a ∧ y i = fin b ∧ l i ≤ b ∧ b ≤ h i ∧ ∃ k : ℤ, b = a + k * (h i - l i)) ∧
      (∀ fuel, s.periodicRow fuel y = some y) := by
  obtain ⟨N, y, h1, h2, h3⟩ := applyCoords_ok (fun fuel i => periodicEntry fuel (s.low i) (s.high i))
    (fun i a b => ∃ k : ℤ, b = a + k * (h i - l i)) (fun i b => l i ≤ b ∧ b ≤ h i) is
    (by
      intro i hi a
      obtain ⟨e1, e2, e3⟩ := hb i hi
      obtain ⟨N, b, f1, f2, f3, f4⟩ := periodicEntry_ok e3 a
      exact ⟨N, b, by simpa [e1, e2] using f1, f4, f2, f3⟩)
    (fun i a => ⟨0, by simp⟩)
    (by
      rintro i a b c ⟨k, rfl⟩ ⟨k', rfl⟩
      exact ⟨k + k', by push_cast; ring⟩) x hx
  refine ⟨N, y, ?_, h2, ?_, ?_⟩
  · intro fuel hf
    simp only [Scaler.periodicRow, hs]
    exact h1 fuel hf
  · intro i hi
    obtain ⟨a, b, e1, e2, e3, e4, e5⟩ := h3 i hi
    exact ⟨a, b, e1, e2, e4, e5, e3⟩
  · intro fuel
    simp only [Scaler.periodicRow, hs]
    apply applyCoords_id
    intro i hi
    obtain ⟨a, b, e1, e2, e3, e4, e5⟩ := h3 i hi
    obtain ⟨f1, f2, f3⟩ := hb i hi
    rw [f1, f2, e2]
    exact periodicEntry_inside b e4 e5 fuel

/-- Beyond C38's quantifier: at `+inf` the wrapping loop never ends. -/
theorem C38_periodic_inf_diverges (l h : ℝ) (fuel : ℕ) : periodicEntry fuel (fin l) (fin h) pinf = none := by
  have : ∀ fuel, whileFuel (fun x => x > fin h) (fun x => fin l + x - fin h) fuel pinf = none := by
    intro fuel
    induction fuel with
    | zero =>
      have : (pinf : F) > fin h := trivial
      simp [whileFuel, this]
    | succ n ih =>
      rw [whileFuel_true (cond := fun x => x > fin h) (x := pinf) trivial]
      exact ih
  simp [periodicEntry, this]

example : ∃ s : Scaler 2, s.periodic = some [0] ∧ s.low 0 = fin 0 ∧ s.high 0 = fin 1 ∧ (0:ℝ) < 1 :=
  ⟨Scaler.init 2 (some (fun _ => fin 0, fun _ => fin 1)) (some [0]) none .logit, rfl, rfl, rfl, by norm_num⟩

/-! ### C39 -/

/-- **C39**, exact behaviour: one entry is always processed within one turn of each loop, and the result is inside the
bounds exactly when the entry was at most one width below the lower or two widths above the upper bound. -/
theorem reflectiveEntry_ok {l h : ℝ} (hlh : l < h) (x : ℝ) :
    ∃ y : ℝ, (∀ fuel ≥ 1, reflectiveEntry fuel (fin l) (fin h) (fin x) = some (fin y)) ∧
      ((∃ k : ℤ, y = x + 2 * k * (h - l)) ∨ ∃ k : ℤ, y = 2 * h - x + 2 * k * (h - l)) ∧
      ((l ≤ y ∧ y ≤ h) ↔ (l - (h - l) ≤ x ∧ x ≤ h + 2 * (h - l))) := by
  by_cases h1 : x ≤ h
  · by_cases h2 : l ≤ x
    · refine ⟨x, fun fuel _ => ?_, Or.inl ⟨0, by simp⟩, ⟨fun _ => ⟨by linarith, by linarith⟩, fun _ => ⟨h2, h1⟩⟩⟩
      unfold reflectiveEntry
      rw [whileFuel_false (by simpa using h1)]
      exact whileFuel_false (by simpa using h2) _
    · push Not at h2
      refine ⟨l + l - x, fun fuel hf => ?_, Or.inr ⟨-1, by push_cast; ring⟩, ⟨fun hh => ⟨by linarith [hh.2], by linarith⟩, fun hh => ⟨by linarith,
        by linarith [hh.1]⟩⟩⟩
      obtain ⟨f, rfl⟩ : ∃ f, fuel = f + 1 := ⟨fuel - 1, by omega⟩
      unfold reflectiveEntry
      rw [whileFuel_false (by simpa using h1)]
      rw [Option.bind_eq_bind, Option.bind_some]
      rw [whileFuel_true (by simpa using h2), fin_add, fin_sub]
      exact whileFuel_false (by simp; linarith) _
  · push Not at h1
    by_cases h2 : l ≤ h - x + h
    · refine ⟨h - x + h, fun fuel hf => ?_, Or.inr ⟨0, by push_cast; ring⟩, ⟨fun hh => ⟨by linarith [hh.2], by linarith⟩, fun hh => ⟨by linarith,
        by linarith [hh.1]⟩⟩⟩
      obtain ⟨f, rfl⟩ : ∃ f, fuel = f + 1 := ⟨fuel - 1, by omega⟩
      unfold reflectiveEntry
      rw [whileFuel_true (by simpa using h1), fin_sub, fin_add, whileFuel_false (by simp; linarith)]
      exact whileFuel_false (by simpa using h2) _
    · push Not at h2
      refine ⟨l + l - (h - x + h), fun fuel hf => ?_, Or.inl ⟨-1, by push_cast; ring⟩, ⟨fun hh => ⟨by linarith [hh.2], by linarith [hh.2]⟩,
        fun hh => ⟨by linarith, by linarith [hh.2]⟩⟩⟩
      obtain ⟨f, rfl⟩ : ∃ f, fuel = f + 1 := ⟨fuel - 1, by omega⟩
      unfold reflectiveEntry
      rw [whileFuel_true (by simpa using h1), fin_sub, fin_add, whileFuel_false (by simp; linarith)]
      rw [Option.bind_eq_bind, Option.bind_some]
      rw [whileFuel_true (by simpa using h2), fin_add, fin_sub]
      exact whileFuel_false (by simp; linarith) _

/-- **C39**, partial: reflective folding always terminates, leaves unlisted entries alone, moves every listed entry by
reflections at its bounds, and puts it inside its bounds *provided* the entry was at most one width below the lower bound and two widths above the upper one.
Missing: the property claims it for every `x`, which `C39_reflective_escapes` refutes. -/
theorem C39_reflective_partial (s : Scaler d) (is : List (Fin d)) (hs : s.reflective = some is) (hnd : is.Nodup)
    (l h : Fin d → ℝ) (hb : ∀ i ∈ is, s.low i = fin (l i) ∧ s.high i = fin (h i) ∧ l i < h i)
    (x : Pt d) (hx : ∀ i ∈ is, ∃ r, x i = fin r) :
    ∃ y : Pt d, (∀ fuel ≥ 1, s.reflectiveRow fuel x = some y) ∧
      (∀ i, i ∉ is → y i = x i) ∧
      (∀ i ∈ is, ∃ a b, x i = fin a ∧ y i = fin b ∧
        ((∃ k : ℤ, b = a + 2 * k * (h i - l i)) ∨ ∃ k : ℤ, b = 2 * h i - a + 2 * k * (h i - l i)) ∧
        ((l i ≤ b ∧ b ≤ h i) ↔ (l i - (h i - l i) ≤ a ∧ a ≤ h i + 2 * (h i - l i)))) := by
  suffices H : ∃ y : Pt d,
      (∀ fuel ≥ 1, applyCoords (fun i => reflectiveEntry fuel (s.low i) (s.high i)) is x = some y) ∧
      (∀ i, i ∉ is → y i = x i) ∧
      (∀ i ∈ is, ∃ a b, x i = fin a ∧ y i = fin b ∧
        ((∃ k : ℤ, b = a + 2 * k * (h i - l i)) ∨ ∃ k : ℤ, b = 2 * h i - a + 2 * k * (h i - l i)) ∧
        ((l i ≤ b ∧ b ≤ h i) ↔ (l i - (h i - l i) ≤ a ∧ a ≤ h i + 2 * (h i - l i)))) by
    simpa only [Scaler.reflectiveRow, hs] using H
  clear hs
  induction is generalizing x with
  | nil => exact ⟨x, fun _ _ => rfl, fun _ _ => rfl, fun i hi => absurd hi (by simp)⟩
  | cons j is ih =>
    obtain ⟨a, ha⟩ := hx j List.mem_cons_self
    obtain ⟨e1, e2, e3⟩ := hb j List.mem_cons_self
    obtain ⟨b, hb1, hb2⟩ := reflectiveEntry_ok e3 a
    have hj : j ∉ is := (List.nodup_cons.mp hnd).1
    obtain ⟨y, h1, h2, h3⟩ := ih (List.nodup_cons.mp hnd).2 (fun i hi => hb i (List.mem_cons_of_mem _ hi))
      (Function.update x j (fin b)) (by
        intro i hi
        have hij : i ≠ j := fun e => hj (e ▸ hi)
        rw [Function.update_of_ne hij]; exact hx i (List.mem_cons_of_mem _ hi))
    refine ⟨y, ?_, ?_, ?_⟩
    · intro fuel hfuel
      simp only [applyCoords, ha, e1, e2, hb1 fuel hfuel]
      exact h1 fuel hfuel
    · intro i hi
      simp only [List.mem_cons, not_or] at hi
      rw [h2 i hi.2, Function.update_of_ne hi.1]
    · intro i hi
      by_cases hij : i = j
      · subst hij
        exact ⟨a, b, ha, by rw [h2 i hj, Function.update_self], hb2⟩
      · have him : i ∈ is := by simpa [hij] using hi
        obtain ⟨a', b', g1, g2, g3⟩ := h3 i him
        rw [Function.update_of_ne hij] at g1
        exact ⟨a', b', g1, g2, g3⟩

/-- **C39** is false as stated: a reflective parameter on [0, 1] proposed at 3.5 ends at 1.5, outside its bounds. -/
theorem C39_reflective_escapes :
    let s := Scaler.init 1 (some (fun _ => fin 0, fun _ => fin 1)) none (some [0]) .logit
    ∀ fuel ≥ 1, s.boundaryRow fuel (fun _ => fin 3.5) = some (fun _ => fin 1.5) := by
  intro s fuel hf
  obtain ⟨f, rfl⟩ : ∃ f, fuel = f + 1 := ⟨fuel - 1, by omega⟩
  have e : reflectiveEntry (f + 1) (fin 0) (fin 1) (fin 3.5) = some (fin 1.5) := by
    unfold reflectiveEntry
    rw [whileFuel_true (by simp; norm_num), fin_sub, fin_add, whileFuel_false (by simp; norm_num)]
    rw [Option.bind_eq_bind, Option.bind_some]
    rw [whileFuel_true (by simp; norm_num), fin_add, fin_sub, whileFuel_false (by simp; norm_num)]
    norm_num
  simp only [s, Scaler.boundaryRow, Scaler.init, Scaler.reflectiveRow, applyCoords, Option.getD_some, e]
  congr 1
  funext i
  have : i = 0 := Subsingleton.elim _ _
  subst this
  simp

/-- **C38 and C39 together**, partial for the same reason: with disjoint lists of periodic and reflective parameters, the
boundary conditions of a point with finite listed entries terminate; every periodic entry is brought inside by whole
periods, every reflective entry by reflections (inside as far as C39 goes), and all other entries stay as they are. -/
theorem C39_boundary_partial (s : Scaler d) (l h : Fin d → ℝ) (hnd : (s.reflective.getD []).Nodup)
    (hdis : ∀ i ∈ s.periodic.getD [], i ∉ s.reflective.getD [])
    (hb : ∀ i, i ∈ s.periodic.getD [] ∨ i ∈ s.reflective.getD [] → s.low i = fin (l i) ∧ s.high i = fin (h i) ∧ l i < h i)
    (x : Pt d) (hx : ∀ i, i ∈ s.periodic.getD [] ∨ i ∈ s.reflective.getD [] → ∃ r, x i = fin r) :
    ∃ N, ∃ y : Pt d, (∀ fuel ≥ N, s.boundaryRow fuel x = some y) ∧
      (∀ i, i ∉ s.periodic.getD [] → i ∉ s.reflective.getD [] → y i = x i) ∧
      (∀ i ∈ s.periodic.getD [], ∃ a b, x i = fin a ∧ y i = fin b ∧ l i ≤ b ∧ b ≤ h i ∧ ∃ k : ℤ, b = a + k * (h i - l i)) ∧
      (∀ i ∈ s.reflective.getD [], ∃ a b, x i = fin a ∧ y i = fin b ∧
        ((∃ k : ℤ, b = a + 2 * k * (h i - l i)) ∨ ∃ k : ℤ, b = 2 * h i - a + 2 * k * (h i - l i)) ∧
        ((l i ≤ b ∧ b ≤ h i) ↔ (l i - (h i - l i) ≤ a ∧ a ≤ h i + 2 * (h i - l i)))) := by
  cases hp : s.periodic with
  | none =>
    cases hr : s.reflective with
    | none =>
      refine ⟨0, x, fun fuel _ => ?_, fun _ _ _ => rfl, fun i hi => absurd hi (by simp), fun i hi => absurd hi (by simp)⟩
      simp only [Scaler.boundaryRow, hp, hr]
    | some rs =>
      simp only [hp, hr, Option.getD_some, Option.getD_none, List.not_mem_nil, false_or] at hnd hb hx ⊢
      obtain ⟨y, h1, h2, h3⟩ := C39_reflective_partial s rs hr hnd l h hb x hx
      refine ⟨1, y, fun fuel hf => ?_, fun i _ hi => h2 i hi, fun i hi => absurd hi (by simp), h3⟩
      simp only [Scaler.boundaryRow, hp, hr]
      exact h1 fuel hf
  | some ps =>
    cases hr : s.reflective with
    | none =>
      simp only [hp, hr, Option.getD_some, Option.getD_none, List.not_mem_nil, or_false] at hb hx ⊢
      obtain ⟨N, y, h1, h2, h3, -⟩ := C38_periodic s ps hp l h hb x hx
      refine ⟨N, y, fun fuel hf => ?_, fun i hi _ => h2 i hi, h3, fun i hi => absurd hi (by simp)⟩
      simp only [Scaler.boundaryRow, hp, hr]
      exact h1 fuel hf
    | some rs =>
      simp only [hp, hr, Option.getD_some] at hnd hdis hb hx ⊢
      obtain ⟨N, y, h1, h2, h3, -⟩ := C38_periodic s ps hp l h (fun i hi => hb i (Or.inl hi)) x (fun i hi => hx i (Or.inl hi))
      have hni : ∀ i ∈ rs, i ∉ ps := fun i hi hi' => hdis i hi' hi
      obtain ⟨z, g1, g2, g3⟩ := C39_reflective_partial s rs hr hnd l h (fun i hi => hb i (Or.inr hi)) y
        (fun i hi => by rw [h2 i (hni i hi)]; exact hx i (Or.inr hi))
      refine ⟨N + 1, z, fun fuel hf => ?_, fun i hi hi' => by rw [g2 i hi', h2 i hi], ?_, ?_⟩
      · simp only [Scaler.boundaryRow, hp, hr]
        rw [h1 fuel (by omega), Option.bind_some]
        exact g1 fuel (by omega)
      · intro i hi
        rw [g2 i (hdis i hi)]
        exact h3 i hi
      · intro i hi
        have := g3 i hi
        rwa [h2 i (hni i hi)] at this

/-- A scaler with a periodic and a reflective parameter. -/
example : let s := Scaler.init 2 (some (fun _ => fin 0, fun _ => fin 1)) (some [0]) (some [1]) .logit
    (s.reflective.getD []).Nodup ∧ (∀ i ∈ s.periodic.getD [], i ∉ s.reflective.getD []) ∧
    ∀ i, s.low i = fin 0 ∧ s.high i = fin 1 ∧ (0 : ℝ) < 1 := by
  refine ⟨by simp [Scaler.init], by simp [Scaler.init], fun i => ⟨rfl, rfl, one_pos⟩⟩

/-! ### C40 -/

/-- **C40** is false: the boundary conditions are applied to `inverse(u)`, which already lies strictly inside the bounds
(C36), and there they are the identity. So whatever is declared periodic or reflective, no finite proposal changes. -/
theorem C40_boundary_noop (s : Scaler d) (hs : s.Ok) (u : Fin d → ℝ) (x : Pt d) (ld : F)
    (hx : s.inverseRow (pt u) = .ok (x, ld)) (fuel : ℕ) : s.boundaryRow fuel x = some x := by
  obtain ⟨x', ld', e, hin⟩ := C36_inverse_inside s hs u
  rw [e] at hx
  simp only [Except.ok.injEq, Prod.mk.injEq] at hx
  obtain ⟨rfl, -⟩ := hx
  have hlo : ∀ i, ¬ (pt x' i < s.low i) := by
    intro i hlt
    unfold pt at hlt
    cases hl : s.low i with
    | nan => rw [hl] at hlt; exact hlt
    | ninf => rw [hl] at hlt; exact hlt
    | pinf => exact (hs.1 i).1 hl
    | fin l =>
      rw [hl, fin_lt] at hlt
      have := (hin i).1 l hl
      linarith
  have hhi : ∀ i, ¬ (pt x' i > s.high i) := by
    intro i hlt
    unfold pt at hlt
    cases hl : s.high i with
    | nan => rw [hl] at hlt; exact hlt
    | pinf => rw [hl] at hlt; exact hlt
    | ninf => exact (hs.1 i).2.1 hl
    | fin l =>
      rw [hl, gt_iff_lt, fin_lt] at hlt
      have := (hin i).2 l hl
      linarith
  have hp : s.periodicRow fuel (pt x') = some (pt x') := by
    unfold Scaler.periodicRow
    cases s.periodic with
    | none => rfl
    | some is =>
      refine applyCoords_id _ _ _ fun i _ => ?_
      unfold periodicEntry
      rw [whileFuel_false (cond := fun x => x > s.high i) (hhi i)]
      exact whileFuel_false (cond := fun x => x < s.low i) (hlo i) _
  have hr : s.reflectiveRow fuel (pt x') = some (pt x') := by
    unfold Scaler.reflectiveRow
    cases s.reflective with
    | none => rfl
    | some is =>
      refine applyCoords_id _ _ _ fun i _ => ?_
      unfold reflectiveEntry
      rw [whileFuel_false (cond := fun x => x > s.high i) (hhi i)]
      exact whileFuel_false (cond := fun x => x < s.low i) (hlo i) _
  unfold Scaler.boundaryRow
  cases s.periodic <;> cases s.reflective <;> simp [hp, hr]

/-! ### C42 -/

/-- An entry violates its bounds: it is NaN, or beyond a bound that is present (not NaN). -/
def Spec.Outside (low high : F) (v : F) : Prop :=
  v = nan ∨ (low ≠ nan ∧ v < low) ∨ (high ≠ nan ∧ high < v)

theorem within_iff_not_outside (low high v : F) :
    ((if low.isnan then ninf else low) ≤ v ∧ v ≤ (if high.isnan then pinf else high)) ↔ ¬ Outside low high v := by
  unfold Spec.Outside
  cases low <;> cases high <;> cases v <;> simp [not_lt]

theorem withinInterval_false (low high : Fin d → F) (x : List (Pt d)) :
    withinInterval low high x = false ↔ ∃ row ∈ x, ∃ i, Outside (low i) (high i) (row i) := by
  rw [← Bool.not_eq_true, withinInterval_iff]
  simp only [within_iff_not_outside]
  push Not
  rfl

/-- **C42**, for given bounds: `fit` and `forward` (of a fitted or non-scaling object) raise ValueError exactly when
some entry is outside its bounds, and otherwise return. -/
theorem C42_bounds_check_partial (s : Scaler d) (x : List (Pt d)) :
    ((s.fit x = .error .valueError ↔ ∃ row ∈ x, ∃ i, Outside (s.low i) (s.high i) (row i)) ∧
      ((∃ s', s.fit x = .ok s') ↔ ¬ ∃ row ∈ x, ∃ i, Outside (s.low i) (s.high i) (row i))) ∧
    ((s.scale = true → s.affine ≠ none) →
      (s.forward x = .error .valueError ↔ ∃ row ∈ x, ∃ i, Outside (s.low i) (s.high i) (row i)) ∧
      ((∃ u, s.forward x = .ok u ∧ u.length = x.length) ↔
        ¬ ∃ row ∈ x, ∃ i, Outside (s.low i) (s.high i) (row i))) := by
  rw [← withinInterval_false]
  refine ⟨?_, ?_⟩
  · unfold Scaler.fit
    cases withinInterval s.low s.high x <;> simp
  · intro hs
    unfold Scaler.forward
    have hrow : ∃ f : Pt d → Pt d, ∀ a, s.forwardRow a = .ok (f a) := by
      unfold Scaler.forwardRow
      cases hsc : s.scale with
      | false => exact ⟨s.fwdRow, fun a => by simp⟩
      | true =>
        cases ha : s.affine with
        | none => exact absurd ha (hs hsc)
        | some a => exact ⟨fun x => a.forward (s.fwdRow x), fun _ => by simp only [if_true]⟩
    obtain ⟨f, hf⟩ := hrow
    have hm := mapM_ok s.forwardRow f x fun a _ => hf a
    cases withinInterval s.low s.high x with
    | false => simp
    | true => simp [hm]

/-- **C42** is false for `bounds=None`: the code then sets every lower bound to `+inf`, and `fit` and `forward` reject
every batch that contains a finite (or even NaN, or -inf) entry. -/
theorem C42_none_rejects (d : ℕ) (per refl : Option (List (Fin d))) (t : Transform) (x : List (Pt d))
    (row : Pt d) (hrow : row ∈ x) (i : Fin d) (hi : row i ≠ pinf) :
    (Scaler.init d none per refl t).fit x = .error .valueError ∧
    (Scaler.init d none per refl t).forward x = .error .valueError := by
  have : withinInterval (Scaler.init d none per refl t).low (Scaler.init d none per refl t).high x = false := by
    rw [withinInterval_false]
    refine ⟨row, hrow, i, ?_⟩
    show Outside pinf pinf (row i)
    unfold Spec.Outside
    cases h : row i with
    | nan => exact Or.inl rfl
    | ninf => exact Or.inr (Or.inl ⟨by simp, trivial⟩)
    | pinf => exact absurd h hi
    | fin r => exact Or.inr (Or.inl ⟨by simp, trivial⟩)
  simp [Scaler.fit, Scaler.forward, this]

/-! ### C43 -/

/-- **C43**, partial: `forward` is finite on every batch *strictly* inside the bounds. Missing: the boundary points,
where `C43_bound_infinite` shows it is infinite. -/
theorem C43_forward_finite_partial (s : Scaler d) (hs : s.Ok) (xs : List (Fin d → ℝ))
    (hx : ∀ x ∈ xs, StrictlyInside s.low s.high x) :
    ∃ us : List (Fin d → ℝ), s.forward (xs.map pt) = .ok (us.map pt) := by
  obtain ⟨G, Fw, J, h1, h2, h3, h4, h5, h6⟩ := hs.real
  refine ⟨xs.map Fw, ?_⟩
  unfold Scaler.forward
  rw [withinInterval_strict hs.1 xs hx]
  simp only [Bool.not_true, Bool.and_false, Bool.false_eq_true, if_false]
  rw [List.mapM_map, List.map_map]
  exact mapM_ok _ _ _ fun x hx' => (h5 x (hx x hx')).1

theorem log_zero : log (fin 0) = ninf := by simp [log]

/-- The transformed value at a bound. -/
theorem fwdCoord_at_low (t : Transform) (l : ℝ) (high : F) (hp : ∀ h, high = fin h → l < h) :
    fwdCoord t (fin l) high (fin l) = ninf := by
  cases hh : high.isfinite with
  | false => simp [fwdCoord, masks_left (isfinite_fin l) hh, fwdLeft, log_zero]
  | true =>
    obtain ⟨h, rfl⟩ := isfinite_iff.mp hh
    have hw : h - l ≠ 0 := by have := hp h rfl; linarith
    cases t with
    | logit =>
      simp only [fwdCoord, masks_both (isfinite_fin l) (isfinite_fin h), fwdBoth, fin_sub, sub_self]
      rw [fin_div _ _ hw, zero_div, fin_sub, fin_div _ _ (by norm_num)]
      simp [log_zero]
    | probit =>
      simp only [fwdCoord, masks_both (isfinite_fin l) (isfinite_fin h), fwdBoth, fin_sub, sub_self]
      rw [fin_div _ _ hw, zero_div, fin_mul, fin_sub]
      have e : erfinv (fin (2 * 0 - 1)) = ninf := by
        simp only [erfinv]; rw [if_neg (by norm_num), if_pos (by norm_num)]
      rw [e, if_pos trivial]
      show infMul (-(Real.sqrt 2)) = ninf
      have : 0 < Real.sqrt 2 := Real.sqrt_pos.mpr two_pos
      rw [infMul, if_neg (by linarith), if_neg (by linarith)]

theorem fwdCoord_at_high (t : Transform) (low : F) (h : ℝ) (hp : ∀ l, low = fin l → l < h) :
    fwdCoord t low (fin h) (fin h) = ninf ∨ fwdCoord t low (fin h) (fin h) = pinf := by
  cases hl : low.isfinite with
  | false => left; simp [fwdCoord, masks_right hl (isfinite_fin h), fwdRight, log_zero]
  | true =>
    right
    obtain ⟨l, rfl⟩ := isfinite_iff.mp hl
    have hw : h - l ≠ 0 := by have := hp l rfl; linarith
    cases t with
    | logit =>
      simp only [fwdCoord, masks_both (isfinite_fin l) (isfinite_fin h), fwdBoth, fin_sub]
      rw [fin_div _ _ hw, div_self hw, fin_sub, sub_self, fin_div_zero_pos _ one_pos]
      rfl
    | probit =>
      simp only [fwdCoord, masks_both (isfinite_fin l) (isfinite_fin h), fwdBoth, fin_sub]
      rw [fin_div _ _ hw, div_self hw, fin_mul, fin_sub]
      have e : erfinv (fin (2 * 1 - 1)) = pinf := by
        simp only [erfinv]; rw [if_pos (by norm_num)]
      rw [e, if_pos trivial]
      show infMul (Real.sqrt 2) = pinf
      have : 0 < Real.sqrt 2 := Real.sqrt_pos.mpr two_pos
      rw [infMul, if_neg (by linarith), if_pos this]

/-- **C43** is false at the bounds: with any finite lower (upper) bound, a point on that bound passes the check and is
sent to an infinite value; the code's clipping of `p` has no effect. Here without scaling; for a fitted scale see
`C43_bound_infinite_fitted`. -/
theorem C43_bound_infinite (s : Scaler d) (hs : s.Ok) (x : Fin d → ℝ) (hx : Inside s.low s.high x) (i : Fin d)
    (hi : s.low i = fin (x i) ∨ s.high i = fin (x i)) (hsc : s.scale = false) :
    ∃ u : Pt d, s.forward [pt x] = .ok [u] ∧ (u i = ninf ∨ u i = pinf) := by
  refine ⟨s.fwdRow (pt x), ?_, ?_⟩
  · have : withinInterval s.low s.high [pt x] = true := by
      rw [withinInterval_iff]
      intro row hrow j
      simp only [List.mem_singleton] at hrow
      subst hrow
      obtain ⟨h1, h2⟩ := hx j
      constructor
      · cases hl : s.low j with
        | nan => exact trivial
        | ninf => exact trivial
        | pinf => exact absurd hl (hs.1 j).1
        | fin l => exact h1 l hl
      · cases hl : s.high j with
        | nan => exact trivial
        | pinf => exact trivial
        | ninf => exact absurd hl (hs.1 j).2.1
        | fin l => exact h2 l hl
    simp [Scaler.forward, this, Scaler.forwardRow, hsc]
  · show fwdCoord _ _ _ (fin (x i)) = _ ∨ fwdCoord _ _ _ (fin (x i)) = _
    rcases hi with hi | hi
    · left
      rw [hi]
      exact fwdCoord_at_low _ _ _ fun h hh => (hs.1 i).2.2 _ _ hi hh
    · rw [hi]
      exact fwdCoord_at_high _ _ _ fun l hl => (hs.1 i).2.2 _ _ hl hi

/-! ### C41 -/

theorem std_fin (l : List ℝ) (h : l ≠ []) :
    F.std (l.map fin) = fin (Real.sqrt ((l.map fun x => (x - l.sum / l.length) ^ 2).sum / l.length)) := by
  unfold F.std
  simp only [mean_fin l h]
  have : ((l.map fin).map fun x => sq (abs (x - fin (l.sum / l.length))))
      = (l.map fun x => (x - l.sum / l.length) ^ 2).map fin := by
    simp [List.map_map, Function.comp_def, sq_abs]
  rw [this, mean_fin _ (by simpa using h), sqrt_fin]
  · simp
  · apply div_nonneg _ (Nat.cast_nonneg _)
    apply List.sum_nonneg
    intro y hy
    obtain ⟨x, -, rfl⟩ := List.mem_map.mp hy
    positivity

/-- **C41.** For every training batch strictly inside the bounds and not constant in any dimension, `fit` succeeds,
leaves a usable scaler, and `forward` of the same batch then has mean 0 and standard deviation 1 in every dimension. -/
theorem C41_fit_standardises (s : Scaler d) (hb : ProperBounds s.low s.high) (hsc : s.scale = true)
    (xs : List (Fin d → ℝ)) (hx : ∀ x ∈ xs, StrictlyInside s.low s.high x)
    (hne : xs ≠ []) (hvar : ∀ i, ∃ a ∈ xs, ∃ b ∈ xs, a i ≠ b i) :
    ∃ s', s.fit (xs.map pt) = .ok s' ∧ s'.Ok ∧
      ∃ vs : List (Fin d → ℝ), s'.forward (xs.map pt) = .ok (vs.map pt) ∧ vs.length = xs.length ∧
        ∀ i, (vs.map (· i)).sum / vs.length = 0 ∧
          Real.sqrt ((vs.map fun v => (v i - (vs.map (· i)).sum / vs.length) ^ 2).sum / vs.length) = 1 := by
  have hco : ∀ i, ∃ g g' f, CoordOk s.transform (s.low i) (s.high i) g g' f :=
    fun i => coordOk_exists _ _ _ (hb i).2.2
  choose g g' f hc using hco
  have hn : (0 : ℝ) < xs.length := by exact_mod_cast List.length_pos_of_ne_nil hne
  -- the transformed data, per dimension
  let col : Fin d → List ℝ := fun i => xs.map fun x => f i (x i)
  let m : Fin d → ℝ := fun i => (col i).sum / xs.length
  let v : Fin d → ℝ := fun i => ((col i).map fun y => (y - m i) ^ 2).sum / xs.length
  have hcol : ∀ i, ((xs.map pt).map s.fwdRow).map (· i) = (col i).map fin := by
    intro i
    simp only [List.map_map, col]
    apply List.map_congr_left
    intro x hxm
    exact (hc i).fwd (x i) (hx x hxm i).1 (hx x hxm i).2
  have hcl : ∀ i, (col i).length = xs.length := fun i => by simp [col]
  have hcne : ∀ i, col i ≠ [] := fun i => by simpa [col] using hne
  have hv : ∀ i, 0 < v i := by
    intro i
    apply div_pos _ hn
    have hnn : ∀ y ∈ (col i).map fun y => (y - m i) ^ 2, 0 ≤ y := by
      intro y hy
      obtain ⟨x, -, rfl⟩ := List.mem_map.mp hy
      positivity
    rcases (List.sum_nonneg hnn).lt_or_eq with h | h
    · exact h
    · exfalso
      obtain ⟨a, ha, b, hb', hab⟩ := hvar i
      have hz : ∀ x ∈ xs, f i (x i) = m i := by
        intro x hxm
        have hmem : (f i (x i) - m i) ^ 2 ∈ (col i).map fun y => (y - m i) ^ 2 :=
          List.mem_map.mpr ⟨f i (x i), List.mem_map.mpr ⟨x, hxm, rfl⟩, rfl⟩
        have h0 : (f i (x i) - m i) ^ 2 ≤ 0 := by
          rw [h]
          exact List.single_le_sum hnn _ hmem
        have : f i (x i) - m i = 0 := by
          have := sq_nonneg (f i (x i) - m i)
          exact pow_eq_zero_iff (n := 2) (by norm_num) |>.mp (le_antisymm h0 this)
        linarith
      apply hab
      rw [← (hc i).gf (a i) (hx a ha i).1 (hx a ha i).2, ← (hc i).gf (b i) (hx b hb' i).1 (hx b hb' i).2,
        hz a ha, hz b hb']
  let s' : Scaler d := { s with affine := some (.diag (fun i => fin (m i)) (fun i => fin (Real.sqrt (v i)))) }
  have hfit : s.fit (xs.map pt) = .ok s' := by
    unfold Scaler.fit
    rw [withinInterval_strict hb xs hx]
    simp only [Bool.not_true, Bool.false_eq_true, if_false, Except.ok.injEq, s']
    congr 3
    · funext i
      rw [hcol, mean_fin _ (hcne i), hcl]
    · funext i
      rw [hcol, std_fin _ (hcne i), hcl]
  have hok : s'.Ok := by
    refine ⟨hb, fun _ => ⟨_, rfl, ?_⟩⟩
    exact ⟨m, fun i => Real.sqrt (v i), rfl, rfl, fun i => Real.sqrt_pos.mpr (hv i)⟩
  refine ⟨s', hfit, hok, xs.map fun x i => (f i (x i) - m i) / Real.sqrt (v i), ?_, by simp, ?_⟩
  · unfold Scaler.forward
    rw [show withinInterval s'.low s'.high (xs.map pt) = true from withinInterval_strict hb xs hx]
    simp only [Bool.not_true, Bool.and_false, Bool.false_eq_true, if_false]
    rw [List.mapM_map, List.map_map]
    refine mapM_ok _ _ _ fun x hxm => ?_
    show s'.forwardRow (pt x) = _
    have e1 : s'.scale = true := hsc
    have e0 : s'.forwardRow (pt x) = .ok fun i => (Scaler.fwdRow s' (pt x) i - fin (m i)) / fin (Real.sqrt (v i)) := by
      simp only [Scaler.forwardRow, e1, if_true]
      rfl
    rw [e0]
    refine congrArg Except.ok ?_
    funext i
    have e2 : Scaler.fwdRow s' (pt x) i = fin (f i (x i)) := (hc i).fwd (x i) (hx x hxm i).1 (hx x hxm i).2
    have hsq : Real.sqrt (v i) ≠ 0 := (Real.sqrt_pos.mpr (hv i)).ne'
    show (Scaler.fwdRow s' (pt x) i - fin (m i)) / fin (Real.sqrt (v i)) = _
    rw [e2, fin_sub, fin_div _ _ hsq]
    rfl
  · intro i
    have hsq : Real.sqrt (v i) ≠ 0 := (Real.sqrt_pos.mpr (hv i)).ne'
    have hsum : ∀ l : List ℝ, ∀ c w : ℝ, (l.map fun y => (y - c) / w).sum = (l.sum - l.length * c) / w := by
      intro l c w
      induction l with
      | nil => simp
      | cons a l ih => simp only [List.map_cons, List.sum_cons, ih, List.length_cons]; push_cast; ring
    have hmean : ((xs.map fun x i => (f i (x i) - m i) / Real.sqrt (v i)).map (· i)).sum = 0 := by
      have e : ((xs.map fun x i => (f i (x i) - m i) / Real.sqrt (v i)).map (· i))
          = (col i).map fun y => (y - m i) / Real.sqrt (v i) := by simp [col]
      rw [e, hsum, hcl]
      have : (col i).sum - xs.length * m i = 0 := by
        simp only [m]; field_simp; ring
      rw [this, zero_div]
    refine ⟨by rw [hmean, zero_div], ?_⟩
    rw [hmean, zero_div]
    have e : ((xs.map fun x i => (f i (x i) - m i) / Real.sqrt (v i)).map fun w => (w i - 0) ^ 2)
        = ((col i).map fun y => (y - m i) ^ 2).map fun z => (z - 0) / v i := by
      simp only [List.map_map, col]
      apply List.map_congr_left
      intro x _
      simp only [Function.comp, sub_zero, div_pow]
      rw [Real.sq_sqrt (hv i).le]
    rw [e, hsum, List.length_map, mul_zero, sub_zero]
    have : ((col i).map fun y => (y - m i) ^ 2).sum = v i * xs.length := by
      simp only [v]; field_simp
    rw [this, mul_div_assoc, mul_div_assoc]
    have h2 := (hv i).ne'
    rw [List.length_map, show v i * (xs.length / v i / xs.length) = 1 by field_simp]
    simp

/-- A batch that meets the hypotheses of C41 (and of C42, C43): two points of the unit square. -/
example := C41_fit_standardises (Scaler.init 2 (some (fun _ => fin 0, fun _ => fin 1)) none none .probit)
  (fun i => ⟨by simp [Scaler.init], by simp [Scaler.init], fun l h hl hh => by
    simp only [Scaler.init, Option.getD_some, F.fin.injEq] at hl hh; subst hl hh; norm_num⟩) rfl
  [![1/4, 1/2], ![1/2, 3/4]]
  (fun x hx i => by
    simp only [Scaler.init, Option.getD_some, F.fin.injEq]
    simp only [List.mem_cons, List.not_mem_nil, or_false] at hx
    rcases hx with rfl | rfl <;> fin_cases i <;> constructor <;> intro l hl <;> subst hl <;> norm_num)
  (by simp)
  (fun i => ⟨_, List.mem_cons_self, ![1/2, 3/4], by simp, by fin_cases i <;> norm_num⟩)

example := C43_forward_finite_partial exampleScaler exampleScaler_ok [![1/2, 0, 0, 7]] (fun x hx i => by
  obtain rfl := List.mem_singleton.mp hx
  fin_cases i <;> simp [exampleScaler, Scaler.init] <;> norm_num)

/-- Both outcomes of the check occur. -/
example : ((Scaler.init 1 (some (fun _ => fin 0, fun _ => fin 1)) none none .probit).fit [fun _ => fin 2] =
      .error .valueError) ∧
    ∃ s', (Scaler.init 1 (some (fun _ => fin 0, fun _ => fin 1)) none none .probit).fit [fun _ => fin 1] = .ok s' := by
  refine ⟨(C42_bounds_check_partial _ _).1.1.mpr ⟨_, List.mem_singleton.mpr rfl, 0, ?_⟩,
    (C42_bounds_check_partial _ _).1.2.mpr ?_⟩
  · right; right
    exact ⟨by simp [Scaler.init], by simp [Scaler.init]⟩
  · rintro ⟨row, hr, i, h⟩
    obtain rfl := List.mem_singleton.mp hr
    simp [Scaler.init, Spec.Outside] at h
    exact absurd h (by norm_num)

end Poco
