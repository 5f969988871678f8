import Verif.Lemmas.Scaler

/-! Finite results come from finite inputs: what a finite image and Jacobian say about the latent point. -/

namespace Poco
open F Spec

variable {d : ℕ}

theorem add_finite {a b : F} {r : ℝ} (h : a + b = fin r) : (∃ p, a = fin p) ∧ ∃ q, b = fin q := by
  cases a <;> cases b <;> first | exact ⟨⟨_, rfl⟩, ⟨_, rfl⟩⟩ | exact absurd h (by intro h; cases h)

theorem sum_finite {l : List F} {r : ℝ} (h : F.sum l = fin r) : ∀ a ∈ l, ∃ p, a = fin p := by
  induction l generalizing r with
  | nil => simp
  | cons a l ih =>
    rw [sum_cons] at h
    obtain ⟨h1, q, h2⟩ := add_finite h
    intro b hb
    rcases List.mem_cons.mp hb with rfl | hb
    · exact h1
    · exact ih h2 b hb

theorem fin_mul_finite {c : ℝ} {b : F} {r : ℝ} (h : fin c * b = fin r) : ∃ q, b = fin q := by
  cases b with
  | nan => exact absurd h (by intro h; cases h)
  | fin q => exact ⟨q, rfl⟩
  | ninf =>
    exfalso
    change infMul (-c) = fin r at h
    unfold infMul at h
    split_ifs at h
  | pinf =>
    exfalso
    change infMul c = fin r at h
    unfold infMul at h
    split_ifs at h

/-- One coordinate: if the image and the Jacobian term are finite, so is the argument. -/
theorem invCoord_finite {t : Transform} {low high : F} (hp : ∀ l h, low = fin l → high = fin h → l < h) {y : F} {a b : ℝ}
    (h1 : (invCoord t low high y).1 = fin a) (h2 : (invCoord t low high y).2 = fin b) : ∃ q, y = fin q := by
  cases hl : low.isfinite <;> cases hh : high.isfinite
  · simp only [invCoord, masks_none hl hh] at h1
    exact ⟨a, by simpa using h1⟩
  · simp only [invCoord, masks_right hl hh] at h2
    exact ⟨b, by simpa [invRight] using h2⟩
  · simp only [invCoord, masks_left hl hh] at h2
    exact ⟨b, by simpa [invLeft] using h2⟩
  · simp only [invCoord, masks_both hl hh] at h1 h2
    obtain ⟨l, rfl⟩ := isfinite_iff.mp hl
    obtain ⟨h, rfl⟩ := isfinite_iff.mp hh
    have hlh := hp l h rfl rfl
    cases y with
    | fin q => exact ⟨q, rfl⟩
    | nan => cases t <;> simp [invBoth, logaddexp, erf, F.sq, feq] at h1
    | ninf =>
      exfalso
      cases t with
      | logit =>
        simp only [Bool.false_eq_true, if_false, if_true, invBoth, fin_sub, log_fin _ (sub_pos.mpr hlh)] at h2
        obtain ⟨-, q, hq⟩ := add_finite h2
        obtain ⟨⟨-, q', hq'⟩, -⟩ := And.intro (add_finite (add_finite h2).1.choose_spec) trivial
        have : logaddexp (fin 0) (-ninf) = pinf := by
          have h0 : ¬ feq (fin 0) (-ninf) := fun h => h
          have h1 : (fin 0 - -ninf : F) = ninf := rfl
          unfold logaddexp
          rw [if_neg h0, h1]
          simp only [zero_def, F.neg_ninf, exp_ninf, fin_add, add_zero]
          rw [if_neg (show ¬ (ninf : F) > fin 0 from id), if_pos (show (ninf : F) ≤ fin 0 from trivial), log_fin _ one_pos]
          simp
        rw [this] at hq'
        simp [log] at hq'
      | probit =>
        simp only [Bool.false_eq_true, if_false, if_true, invBoth, fin_sub, log_fin _ (sub_pos.mpr hlh)] at h2
        rw [F.sub_def] at h2
        obtain ⟨⟨p, hp⟩, -⟩ := add_finite h2
        obtain ⟨-, q, hq⟩ := add_finite hp
        have : (-(F.sq ninf) / fin 2 : F) = ninf := by
          change F.div (F.neg (F.mul ninf ninf)) (fin 2) = ninf
          simp only [F.mul, F.neg, F.div]
          rw [if_neg (by norm_num)]
        rw [this] at hq
        cases hq
    | pinf =>
      exfalso
      cases t with
      | logit =>
        simp only [Bool.false_eq_true, if_false, if_true, invBoth, fin_sub, log_fin _ (sub_pos.mpr hlh)] at h2
        obtain ⟨-, q, hq⟩ := add_finite h2
        have : logaddexp (fin 0) (-pinf) = fin 0 := by
          have h0 : ¬ feq (fin 0) (-pinf) := fun h => h
          have h1 : (fin 0 - -pinf : F) = pinf := rfl
          unfold logaddexp
          rw [if_neg h0, h1]
          simp only [zero_def, F.neg_pinf, exp_ninf, fin_add, add_zero]
          rw [if_pos (show (pinf : F) > fin 0 from trivial), log_fin _ one_pos]
          simp
        rw [this] at hq
        simp [log] at hq
      | probit =>
        simp only [Bool.false_eq_true, if_false, if_true, invBoth, fin_sub, log_fin _ (sub_pos.mpr hlh)] at h2
        rw [F.sub_def] at h2
        obtain ⟨⟨p, hp⟩, -⟩ := add_finite h2
        obtain ⟨-, q, hq⟩ := add_finite hp
        have : (-(F.sq pinf) / fin 2 : F) = ninf := by
          change F.div (F.neg (F.mul pinf pinf)) (fin 2) = ninf
          simp only [F.mul, F.neg, F.div]
          rw [if_neg (by norm_num)]
        rw [this] at hq
        cases hq

theorem affine_finite {a : Affine d} (ha : a.Ok) {u : Pt d} {y : Fin d → ℝ} (h : (a.inverse u).1 = pt y) :
    ∃ u' : Fin d → ℝ, u = pt u' := by
  have : ∀ i, ∃ q, u i = fin q := by
    intro i
    cases a with
    | diag mu sigma =>
      obtain ⟨m, s, rfl, rfl, hs⟩ := ha
      have h1 := congrFun h i
      simp only [Affine.inverse, pt] at h1
      obtain ⟨-, q, hq⟩ := add_finite h1
      exact fin_mul_finite hq
    | full mu L Linv ld =>
      obtain ⟨m, M, N, rfl, rfl, rfl, hM, rfl⟩ := ha
      have h1 := congrFun h i
      simp only [Affine.inverse, pt] at h1
      obtain ⟨-, q, hq⟩ := add_finite h1
      obtain ⟨p, hp⟩ := sum_finite hq (fin (M i i) * u i) (by
        rw [List.mem_ofFn]
        exact ⟨i, rfl⟩)
      exact fin_mul_finite hp
  choose u' hu using this
  exact ⟨u', funext hu⟩

/-- A usable scaler maps only finite points to finite points with a finite Jacobian term. -/
theorem inverseRow_finite {s : Scaler d} (hs : s.Ok) {u x : Pt d} {ld : F} (h : s.inverseRow u = .ok (x, ld))
    (hx : ∀ i, ∃ r, x i = fin r) (hld : ∃ r, ld = fin r) : ∃ u' : Fin d → ℝ, u = pt u' := by
  obtain ⟨hb, ha⟩ := hs
  obtain ⟨l, rfl⟩ := hld
  choose x' hx using hx
  have key : ∀ (y : Pt d) (l : ℝ), (s.invRow y).1 = x → (s.invRow y).2 = fin l → ∃ y' : Fin d → ℝ, y = pt y' := by
    intro y l h1 h2
    have : ∀ i, ∃ q, y i = fin q := by
      intro i
      have e1 := congrFun h1 i
      rw [hx i] at e1
      obtain ⟨p, e2⟩ := sum_finite h2 (invCoord s.transform (s.low i) (s.high i) (y i)).2 (by
        rw [List.mem_ofFn]
        exact ⟨i, rfl⟩)
      exact invCoord_finite (hb i).2.2 e1 e2
    choose y' hy using this
    exact ⟨y', funext hy⟩
  unfold Scaler.inverseRow at h
  cases hsc : s.scale with
  | false =>
    rw [hsc] at h
    simp only [Bool.false_eq_true, if_false, Except.ok.injEq] at h
    exact key u l (by rw [h]) (by rw [h])
  | true =>
    obtain ⟨a, ha1, ha2⟩ := ha hsc
    rw [hsc, ha1] at h
    simp only [if_true, Except.ok.injEq, Prod.mk.injEq] at h
    obtain ⟨h1, h2⟩ := h
    obtain ⟨-, q, hq⟩ := add_finite h2
    obtain ⟨y', hy⟩ := key _ q h1 hq
    exact affine_finite ha2 hy

end Poco
