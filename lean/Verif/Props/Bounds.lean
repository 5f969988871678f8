import Verif.Props.Mcmc
import Verif.Lemmas.Support

/-! Non-finite values in the reparameterisation (C43), and boundary conditions at the level of the kernels (C40). -/

namespace Poco
open F Spec

variable {d : ℕ} {B : Type}

/-! ### non-finite values stay non-finite -/

theorem nf_cases {a : F} (h : a.isfinite = false) : a = nan ∨ a = ninf ∨ a = pinf := by
  cases a <;> simp_all

theorem pinf_sub_fin (r : ℝ) : pinf - fin r = pinf := rfl
theorem ninf_sub_fin (r : ℝ) : ninf - fin r = ninf := rfl
theorem fin_sub_pinf (r : ℝ) : fin r - pinf = ninf := rfl
theorem fin_sub_ninf (r : ℝ) : fin r - ninf = pinf := rfl
theorem log_one' : log (fin 1) = fin 0 := by rw [log_fin _ one_pos, Real.log_one]
theorem log_zero' : log (fin 0) = ninf := by simp [log]

theorem logaddexp_zero_ninf : logaddexp (fin 0) ninf = fin 0 := by
  have h1 : ¬ feq (fin 0) ninf := id
  have h2 : (fin 0 - ninf : F) > 0 := trivial
  unfold logaddexp
  simp only [h1, h2, if_false, if_true]
  simp [fin_sub_ninf, log_one']

theorem logaddexp_zero_pinf : logaddexp (fin 0) pinf = pinf := by
  have h1 : ¬ feq (fin 0) pinf := id
  have h2 : ¬ (fin 0 - pinf : F) > 0 := id
  have h3 : (fin 0 - pinf : F) ≤ 0 := trivial
  unfold logaddexp
  simp only [h1, h2, h3, if_false, if_true]
  simp [fin_sub_pinf, log_one']

theorem logaddexp_zero_nan : logaddexp (fin 0) nan = nan := by
  have h1 : ¬ feq (fin 0) nan := id
  have h2 : ¬ (fin 0 - nan : F) > 0 := id
  have h3 : ¬ (fin 0 - nan : F) ≤ 0 := id
  unfold logaddexp
  simp only [h1, h2, h3, if_false]
  simp

/-- With both bounds present, a non-finite transformed coordinate gives the lower bound, the upper bound or NaN, and a
Jacobian term that is not finite. -/
theorem invBoth_nf (t : Transform) (l h : ℝ) (hlh : l < h) (v : F) (hv : v.isfinite = false) :
    ((invBoth t (fin l) (fin h) v).1 = fin l ∨ (invBoth t (fin l) (fin h) v).1 = fin h ∨
      (invBoth t (fin l) (fin h) v).1 = nan) ∧ (invBoth t (fin l) (fin h) v).2.isfinite = false := by
  have hw : 0 < h - l := by linarith
  have s2 : (0 : ℝ) < Real.sqrt 2 := Real.sqrt_pos.mpr two_pos
  have s2' : ¬ Real.sqrt 2 < 0 := by linarith
  have sp : sqrt (fin 2 * fin Real.pi) = fin (Real.sqrt (2 * Real.pi)) := by
    rw [fin_mul, sqrt_fin _ (by positivity)]
  have lp : log (fin (Real.sqrt (2 * Real.pi))) = fin (Real.log (Real.sqrt (2 * Real.pi))) :=
    log_fin _ (Real.sqrt_pos.mpr (by positivity))
  rcases nf_cases hv with rfl | rfl | rfl <;> cases t
  · simp [invBoth, logaddexp_zero_nan, isfinite, log]
  · have e1 : sq nan = nan := rfl
    simp [invBoth, isfinite, erf, log, e1]
  · simp [invBoth, logaddexp_zero_pinf, isfinite, log_one', log_zero', log_fin _ hw]
  · have e1 : sq ninf = pinf := rfl
    have e2 : (ninf / fin (Real.sqrt 2) : F) = ninf := by show div _ _ = _; simp [div, s2']
    have e3 : (ninf / fin 2 : F) = ninf := by show div _ _ = _; simp [div]
    have e4 : (fin 0 / fin 2 : F) = fin 0 := by rw [fin_div _ _ two_ne_zero]; simp
    simp only [invBoth, e1, e2, erf, fin_add, fin_sub, log_fin _ hw, neg_pinf, e3, sp, lp]
    simp [e4, ninf_sub_fin, isfinite]
  · simp [invBoth, logaddexp_zero_ninf, isfinite, log_one', log_zero', log_fin _ hw]
  · have e1 : sq pinf = pinf := rfl
    have e2 : (pinf / fin (Real.sqrt 2) : F) = pinf := by show div _ _ = _; simp [div, s2']
    have e3 : (ninf / fin 2 : F) = ninf := by show div _ _ = _; simp [div]
    have e4 : (fin (1 + 1) / fin 2 : F) = fin 1 := by rw [fin_div _ _ two_ne_zero]; norm_num
    simp only [invBoth, e1, e2, erf, fin_add, fin_sub, log_fin _ hw, neg_pinf, e3, sp, lp]
    simp [e4, ninf_sub_fin, isfinite]

theorem fwdCoord_nan (t : Transform) (low high : F) : fwdCoord t low high nan = nan := by
  unfold fwdCoord
  cases t <;> simp [fwdLeft, fwdRight, fwdBoth, log, erfinv]

/-- A non-finite transformed coordinate gives a non-finite parameter or Jacobian term; transformed again it is still not
finite; and with both bounds present the parameter is not outside them. -/
theorem invCoord_nf (t : Transform) (low high v : F) (hp : ∀ l h, low = fin l → high = fin h → l < h)
    (hv : v.isfinite = false) :
    ((invCoord t low high v).1.isfinite && (invCoord t low high v).2.isfinite) = false ∧
    (∀ l h, low = fin l → high = fin h →
      ¬ (invCoord t low high v).1 > fin h ∧ ¬ (invCoord t low high v).1 < fin l) ∧
    (fwdCoord t low high (invCoord t low high v).1).isfinite = false := by
  cases h1 : low.isfinite <;> cases h2 : high.isfinite
  · have e : invCoord t low high v = (v, fin 0) := by simp [invCoord, masks_none h1 h2]
    rw [e]
    refine ⟨by simp [hv], fun l h hl _ => absurd hl (not_finite_ne h1 l), ?_⟩
    simpa [fwdCoord, masks_none h1 h2] using hv
  · obtain ⟨h, rfl⟩ := isfinite_iff.mp h2
    have e : invCoord t low (fin h) v = invRight (fin h) v := by simp [invCoord, masks_right h1 h2]
    rw [e]
    refine ⟨by simp [invRight, hv], fun l h hl _ => absurd hl (not_finite_ne h1 l), ?_⟩
    have e2 : ∀ x, fwdCoord t low (fin h) x = fwdRight (fin h) x := fun x => by simp [fwdCoord, masks_right h1 h2]
    rw [e2]
    rcases nf_cases hv with rfl | rfl | rfl
    · simp [invRight, fwdRight, log, isfinite]
    · simp [invRight, fwdRight, log, isfinite]
    · simp [invRight, fwdRight, log, isfinite, fin_sub_pinf, fin_sub_ninf]
  · obtain ⟨l, rfl⟩ := isfinite_iff.mp h1
    have e : invCoord t (fin l) high v = invLeft (fin l) v := by simp [invCoord, masks_left h1 h2]
    rw [e]
    refine ⟨by simp [invLeft, hv], fun l h _ hh => absurd hh (not_finite_ne h2 h), ?_⟩
    have e2 : ∀ x, fwdCoord t (fin l) high x = fwdLeft (fin l) x := fun x => by simp [fwdCoord, masks_left h1 h2]
    rw [e2]
    rcases nf_cases hv with rfl | rfl | rfl
    · simp [invLeft, fwdLeft, log, isfinite]
    · simp [invLeft, fwdLeft, log, isfinite]
    · simp [invLeft, fwdLeft, log, isfinite, pinf_sub_fin]
  · obtain ⟨l, rfl⟩ := isfinite_iff.mp h1
    obtain ⟨h, rfl⟩ := isfinite_iff.mp h2
    have hlh := hp l h rfl rfl
    have e : invCoord t (fin l) (fin h) v = invBoth t (fin l) (fin h) v := by simp [invCoord, masks_both h1 h2]
    obtain ⟨g1, g2⟩ := invBoth_nf t l h hlh v hv
    rw [e]
    refine ⟨by simp [g2], ?_, ?_⟩
    · rintro l' h' hl' hh'
      simp only [fin_inj] at hl' hh'
      subst hl' hh'
      rcases g1 with g | g | g <;> rw [g]
      · simp [hlh.le]
      · simp [hlh.le]
      · exact ⟨by simp, by simp⟩
    · rcases g1 with g | g | g <;> rw [g]
      · rw [fwdCoord_at_low t l (fin h) fun h' hh' => by simp only [fin_inj] at hh'; linarith]; rfl
      · rcases fwdCoord_at_high t (fin l) h fun l' hl' => by simp only [fin_inj] at hl'; linarith with g | g <;>
          rw [g] <;> rfl
      · rw [fwdCoord_nan]; rfl

theorem nf_sum {l : List F} (h : ∃ a ∈ l, a.isfinite = false) : (F.sum l).isfinite = false := by
  obtain ⟨a, ha, hf⟩ := h
  cases hs : (F.sum l).isfinite with
  | false => rfl
  | true =>
    obtain ⟨r, hr⟩ := isfinite_iff.mp hs
    obtain ⟨p, rfl⟩ := sum_finite hr a ha
    simp at hf

theorem nf_fin_mul {r : ℝ} {a : F} (ha : a.isfinite = false) : (fin r * a).isfinite = false := by
  rcases nf_cases ha with rfl | rfl | rfl
  · simp [isfinite]
  · show (infMul (-r)).isfinite = false
    unfold infMul
    split
    · rfl
    · split <;> rfl
  · show (infMul r).isfinite = false
    unfold infMul
    split
    · rfl
    · split <;> rfl

theorem nf_fin_add {r : ℝ} {a : F} (ha : a.isfinite = false) : (fin r + a).isfinite = false := by
  rcases nf_cases ha with rfl | rfl | rfl <;> simp [isfinite]

theorem nf_add {a b : F} (hb : b.isfinite = false) : (a + b).isfinite = false := by
  rcases nf_cases hb with rfl | rfl | rfl <;> cases a <;> rfl

theorem nf_sub_fin {r : ℝ} {a : F} (ha : a.isfinite = false) : (a - fin r).isfinite = false := by
  rcases nf_cases ha with rfl | rfl | rfl <;> rfl

theorem nf_div_fin {r : ℝ} {a : F} (ha : a.isfinite = false) : (a / fin r).isfinite = false := by
  rcases nf_cases ha with rfl | rfl | rfl
  · simp [isfinite]
  · show (div _ _).isfinite = false
    simp only [div]; split <;> rfl
  · show (div _ _).isfinite = false
    simp only [div]; split <;> rfl

/-- Some coordinate is NaN or infinite. -/
def NonFinite (x : Pt d) : Prop := ∃ i, (x i).isfinite = false

theorem nf_or (x : Pt d) : NonFinite x ∨ ∃ y : Fin d → ℝ, x = pt y := by
  by_cases h : NonFinite x
  · exact Or.inl h
  · right
    have : ∀ i, ∃ r, x i = fin r := fun i => isfinite_iff.mp (by
      by_contra hc
      exact h ⟨i, by simpa using hc⟩)
    choose y hy using this
    exact ⟨y, funext hy⟩

theorem nf_affine_inverse {a : Affine d} (h : a.Ok) {u : Pt d} (hu : NonFinite u) : NonFinite (a.inverse u).1 := by
  obtain ⟨i, hi⟩ := hu
  cases a with
  | diag mu sigma =>
    obtain ⟨m, s, rfl, rfl, -⟩ := h
    exact ⟨i, nf_fin_add (nf_fin_mul hi)⟩
  | full mu L Linv ld =>
    obtain ⟨m, M, N, rfl, rfl, rfl, -, rfl⟩ := h
    exact ⟨i, nf_fin_add (nf_sum ⟨_, (List.mem_ofFn' _ _).mpr ⟨i, rfl⟩, nf_fin_mul hi⟩)⟩

theorem nf_affine_forward {a : Affine d} (h : a.Ok) {u : Pt d} (hu : NonFinite u) : NonFinite (a.forward u) := by
  obtain ⟨i, hi⟩ := hu
  cases a with
  | diag mu sigma =>
    obtain ⟨m, s, rfl, rfl, -⟩ := h
    exact ⟨i, nf_div_fin (nf_sub_fin hi)⟩
  | full mu L Linv ld =>
    obtain ⟨m, M, N, rfl, rfl, rfl, -, rfl⟩ := h
    exact ⟨i, nf_sum ⟨_, (List.mem_ofFn' _ _).mpr ⟨i, rfl⟩, nf_fin_mul (nf_sub_fin hi)⟩⟩


theorem nf_invRow {s : Scaler d} (hb : ProperBounds s.low s.high) {v : Pt d} (hv : NonFinite v) :
    ((s.invRow v).2.isfinite && (List.ofFn (s.invRow v).1).all F.isfinite) = false := by
  obtain ⟨i, hi⟩ := hv
  obtain ⟨h, -, -⟩ := invCoord_nf s.transform (s.low i) (s.high i) (v i) (hb i).2.2 hi
  rw [Bool.and_eq_false_iff] at h ⊢
  rcases h with h | h
  · right
    rw [List.all_eq_false]
    exact ⟨_, (List.mem_ofFn' _ _).mpr ⟨i, rfl⟩, by simp [Scaler.invRow, h]⟩
  · left
    exact nf_sum ⟨_, (List.mem_ofFn' _ _).mpr ⟨i, rfl⟩, h⟩

/-- `inverse` of a point with a non-finite coordinate: the point or the log-determinant is not finite, the listed
coordinates (with both bounds present) are not outside their bounds, and `forward` brings back a point with a non-finite
coordinate. -/
theorem nf_inverseRow {s : Scaler d} (hs : s.Ok) {u : Pt d} (hu : NonFinite u) :
    ∃ x ld, s.inverseRow u = .ok (x, ld) ∧ (ld.isfinite && (List.ofFn x).all F.isfinite) = false ∧
      (∀ i l h, s.low i = fin l → s.high i = fin h → ¬ x i > fin h ∧ ¬ x i < fin l) ∧
      ∃ u', s.forwardRow x = .ok u' ∧ NonFinite u' := by
  have key : ∀ v : Pt d, NonFinite v →
      (∀ i l h, s.low i = fin l → s.high i = fin h → ¬ (s.invRow v).1 i > fin h ∧ ¬ (s.invRow v).1 i < fin l) ∧
      NonFinite (s.fwdRow (s.invRow v).1) := by
    intro v hv
    constructor
    · intro i l h hl hh
      cases hvi : (v i).isfinite with
      | false => exact (invCoord_nf s.transform (s.low i) (s.high i) (v i) (hs.1 i).2.2 hvi).2.1 l h hl hh
      | true =>
        obtain ⟨r, hr⟩ := isfinite_iff.mp hvi
        obtain ⟨g, g', f, hc⟩ := coordOk_exists s.transform (s.low i) (s.high i) (hs.1 i).2.2
        have e : (s.invRow v).1 i = fin (g r) := by
          show (invCoord _ _ _ (v i)).1 = _
          rw [hr, hc.inv]
        obtain ⟨k1, k2⟩ := hc.inside r
        have := k1 l hl
        have := k2 h hh
        rw [e]
        simp only [gt_iff_lt, fin_lt, not_lt]
        constructor <;> linarith
    · obtain ⟨i, hi⟩ := hv
      exact ⟨i, (invCoord_nf s.transform (s.low i) (s.high i) (v i) (hs.1 i).2.2 hi).2.2⟩
  cases hsc : s.scale with
  | false =>
    obtain ⟨k1, k2⟩ := key u hu
    refine ⟨(s.invRow u).1, (s.invRow u).2, by simp [Scaler.inverseRow, hsc], nf_invRow hs.1 hu, k1, _,
      by simp [Scaler.forwardRow, hsc], k2⟩
  | true =>
    obtain ⟨a, ha1, ha2⟩ := hs.2 hsc
    have hv := nf_affine_inverse ha2 hu
    obtain ⟨k1, k2⟩ := key _ hv
    refine ⟨(s.invRow (a.inverse u).1).1, (a.inverse u).2 + (s.invRow (a.inverse u).1).2,
      by simp [Scaler.inverseRow, hsc, ha1], ?_, k1, _, by simp only [Scaler.forwardRow, hsc, ha1, if_true],
      nf_affine_forward ha2 k2⟩
    have := nf_invRow hs.1 hv
    rw [Bool.and_eq_false_iff] at this ⊢
    rcases this with h | h
    · exact Or.inl (nf_add h)
    · exact Or.inr h


/-! ### boundary conditions never act on a proposal -/

theorem whileFuel_stop (cond : F → Prop) [DecidablePred cond] (body : F → F) (fuel : ℕ) (x : F) (h : ¬ cond x) :
    whileFuel cond body fuel x = some x := by
  cases fuel <;> simp [whileFuel, h]

theorem boundaryRow_id (s : Scaler d) (fuel : ℕ) (x : Pt d)
    (h : ∀ i, i ∈ s.periodic.getD [] ∨ i ∈ s.reflective.getD [] → ¬ x i > s.high i ∧ ¬ x i < s.low i) :
    s.boundaryRow fuel x = some x := by
  have hp : s.periodicRow fuel x = some x := by
    unfold Scaler.periodicRow
    cases hq : s.periodic with
    | none => rfl
    | some is =>
      refine applyCoords_id _ _ _ fun i hi => ?_
      obtain ⟨h1, h2⟩ := h i (Or.inl (by simpa [hq] using hi))
      simp [periodicEntry, whileFuel_stop (fun x => x > s.high i) _ fuel _ h1,
        whileFuel_stop (fun x => x < s.low i) _ fuel _ h2]
  have hr : s.reflectiveRow fuel x = some x := by
    unfold Scaler.reflectiveRow
    cases hq : s.reflective with
    | none => rfl
    | some is =>
      refine applyCoords_id _ _ _ fun i hi => ?_
      obtain ⟨h1, h2⟩ := h i (Or.inr (by simpa [hq] using hi))
      simp [reflectiveEntry, whileFuel_stop (fun x => x > s.high i) _ fuel _ h1,
        whileFuel_stop (fun x => x < s.low i) _ fuel _ h2]
  unfold Scaler.boundaryRow
  cases hq1 : s.periodic <;> cases hq2 : s.reflective <;> simp [hp, hr]

/-- The kernel without boundary conditions. -/
def unbounded (e : McmcEnv d B) : McmcEnv d B :=
  { e with scaler := { e.scaler with periodic := none, reflective := none } }

/-- Equal, or both of them not worth an evaluation. -/
def SameCand (c c' : Walker d B) : Prop := c = c' ∨ (finiteMask c = false ∧ finiteMask c' = false)

theorem candidate_unbounded {e : McmcEnv d B} (hs : e.scaler.Ok)
    (hl : ∀ i, i ∈ e.scaler.periodic.getD [] ∨ i ∈ e.scaler.reflective.getD [] →
      ∃ l h, e.scaler.low i = fin l ∧ e.scaler.high i = fin h) (fuel : ℕ) (p : Pt d) :
    ∃ c c', candidate e fuel p = .ok c ∧ candidate (unbounded e) fuel p = .ok c' ∧ SameCand c c' := by
  generalize hu : (if e.kernel.hasFlow then e.flowInv p else (p, fin 0)) = q
  obtain ⟨u, ldf⟩ := q
  have hp : e.kernel.hasFlow = false → u = p := by
    intro hf
    simp only [hf, Bool.false_eq_true, if_false, Prod.mk.injEq] at hu
    exact hu.1.symm
  have hinv : (unbounded e).scaler.inverseRow u = e.scaler.inverseRow u := rfl
  have hp' : (if e.kernel.hasFlow then p else u) = p := by
    cases hf : e.kernel.hasFlow with
    | true => rfl
    | false => simpa using hp hf
  have plain : ∀ x ld, e.scaler.inverseRow u = .ok (x, ld) → candidate (unbounded e) fuel p =
      .ok { theta := p, u := u, x := x, logdetj := ld, logdetjFlow := ldf, logl := ninf, logp := ninf, blob := none } := by
    intro x ld hx
    unfold candidate
    rw [show (unbounded e).kernel = e.kernel from rfl, show (unbounded e).flowInv = e.flowInv from rfl, hu]
    simp only [hinv, hx, bind, Except.bind]
    rfl
  have same : ∀ x ld, e.scaler.inverseRow u = .ok (x, ld) →
      (e.scaler.periodic.isSome || e.scaler.reflective.isSome) = false → candidate e fuel p =
      .ok { theta := p, u := u, x := x, logdetj := ld, logdetjFlow := ldf, logl := ninf, logp := ninf, blob := none } := by
    intro x ld hx hb
    unfold candidate
    rw [hu]
    simp only [hx, hb, bind, Except.bind, Bool.false_eq_true, if_false]
    rfl
  have with' : ∀ x ld u' x' ld', e.scaler.inverseRow u = .ok (x, ld) →
      (e.scaler.periodic.isSome || e.scaler.reflective.isSome) = true → e.scaler.boundaryRow fuel x = some x →
      e.scaler.forwardRow x = .ok u' → e.scaler.inverseRow u' = .ok (x', ld') → candidate e fuel p =
      .ok { theta := if e.kernel.hasFlow then p else u', u := u', x := x', logdetj := ld', logdetjFlow := ldf, logl := ninf,
            logp := ninf, blob := none } := by
    intro x ld u' x' ld' hx hb hbr hf hi
    unfold candidate
    rw [hu]
    simp only [hx, hb, bind, Except.bind, if_true, hbr, hf, hi]
    rfl
  rcases nf_or u with hn | ⟨y, rfl⟩
  · obtain ⟨x, ld, h1, h2, h3, u', h4, h5⟩ := nf_inverseRow hs hn
    cases hb : (e.scaler.periodic.isSome || e.scaler.reflective.isSome) with
    | false => exact ⟨_, _, same x ld h1 hb, plain x ld h1, Or.inl rfl⟩
    | true =>
      obtain ⟨x', ld', g1, g2, -⟩ := nf_inverseRow hs h5
      have hbr : e.scaler.boundaryRow fuel x = some x := boundaryRow_id _ _ _ fun i hi => by
        obtain ⟨l, h, k1, k2⟩ := hl i hi
        have := h3 i l h k1 k2
        rwa [k1, k2]
      exact ⟨_, _, with' x ld u' x' ld' h1 hb hbr h4 g1, plain x ld h1, Or.inr ⟨g2, h2⟩⟩
  · obtain ⟨G, Fw, J, h1, -, -, h4, h5, h6⟩ := hs.real
    cases hb : (e.scaler.periodic.isSome || e.scaler.reflective.isSome) with
    | false => exact ⟨_, _, same _ _ (h1 y) hb, plain _ _ (h1 y), Or.inl rfl⟩
    | true =>
      have hbr := C40_boundary_noop e.scaler hs y _ _ (h1 y) fuel
      have hf := (h5 (G y) (h4 y)).1
      rw [h6 y] at hf
      refine ⟨_, _, with' _ _ _ _ _ (h1 y) hb hbr hf (h1 y), plain _ _ (h1 y), Or.inl ?_⟩
      have : (if e.kernel.hasFlow then p else fun i => fin (y i)) = p := hp'
      simp only [this]
      rfl

theorem mapM_rel {α β : Type} {f g : α → Except PyErr β} (R : β → β → Prop)
    (h : ∀ a, ∃ b b', f a = .ok b ∧ g a = .ok b' ∧ R b b') (l : List α) :
    ∃ bs bs', l.mapM f = .ok bs ∧ l.mapM g = .ok bs' ∧ List.Forall₂ R bs bs' := by
  induction l with
  | nil => exact ⟨[], [], rfl, rfl, .nil⟩
  | cons a l ih =>
    obtain ⟨b, b', h1, h2, h3⟩ := h a
    obtain ⟨bs, bs', g1, g2, g3⟩ := ih
    refine ⟨b :: bs, b' :: bs', ?_, ?_, .cons h3 g3⟩
    · rw [List.mapM_cons, h1, g1]; rfl
    · rw [List.mapM_cons, h2, g2]; rfl

theorem sameCand_mask {cs cs' : List (Walker d B)} (h : List.Forall₂ SameCand cs cs') :
    cs.map finiteMask = cs'.map finiteMask := by
  induction h with
  | nil => rfl
  | cons h _ ih =>
    rcases h with rfl | ⟨h1, h2⟩
    · simp [ih]
    · simp [ih, h1, h2]

theorem sameCand_select0 {cs cs' : List (Walker d B)} (h : List.Forall₂ SameCand cs cs') :
    maskSelect (cs'.map finiteMask) (cs.map (·.x)) = maskSelect (cs'.map finiteMask) (cs'.map (·.x)) := by
  induction h with
  | nil => rfl
  | cons h _ ih =>
    unfold maskSelect at ih ⊢
    rcases h with rfl | ⟨h1, h2⟩
    · simp only [List.map_cons, List.zip_cons_cons, List.filter_cons]
      split <;> simp_all
    · simp_all

theorem sameCand_select {cs cs' : List (Walker d B)} (h : List.Forall₂ SameCand cs cs') (q : List F) :
    maskSelect (List.zipWith (fun m v => m && F.isfinite v) (cs'.map finiteMask) q) (cs.map (·.x)) =
      maskSelect (List.zipWith (fun m v => m && F.isfinite v) (cs'.map finiteMask) q) (cs'.map (·.x)) := by
  induction h generalizing q with
  | nil => rfl
  | cons h _ ih =>
    cases q with
    | nil => simp [maskSelect]
    | cons v q =>
      have := ih q
      unfold maskSelect at this ⊢
      rcases h with rfl | ⟨h1, h2⟩
      · simp only [List.map_cons, List.zipWith_cons_cons, List.zip_cons_cons, List.filter_cons]
        split <;> simp_all
      · simp_all

/-- Equal, or both with log-likelihood `-inf`. -/
def SameProp (p p' : Walker d B) : Prop := p = p' ∨ (p.logl = ninf ∧ p'.logl = ninf)

theorem sameProp_zip {cs cs' : List (Walker d B)} (h : List.Forall₂ SameCand cs cs') (vs : List (F × F × Option B))
    (hv : ∀ (k : ℕ) c v, cs[k]? = some c → finiteMask c = false → vs[k]? = some v → v.1 = ninf) :
    List.Forall₂ SameProp
      (List.zipWith (fun c (v : F × F × Option B) => { c with logl := v.1, logp := v.2.1, blob := v.2.2 }) cs vs)
      (List.zipWith (fun c (v : F × F × Option B) => { c with logl := v.1, logp := v.2.1, blob := v.2.2 }) cs' vs) := by
  induction h generalizing vs with
  | nil => simp
  | cons h _ ih =>
    cases vs with
    | nil => simp
    | cons v vs =>
      rw [List.zipWith_cons_cons, List.zipWith_cons_cons]
      refine .cons ?_ (ih vs fun k c v hc => hv (k + 1) c v (by simpa using hc))
      rcases h with rfl | ⟨h1, h2⟩
      · exact Or.inl rfl
      · have := hv 0 _ v rfl h1 rfl
        exact Or.inr ⟨this, this⟩

theorem evaluate_same (e : McmcEnv d B) {cs cs' : List (Walker d B)} (h : List.Forall₂ SameCand cs cs') :
    (∃ x, evaluate e cs = .error x ∧ evaluate e cs' = .error x) ∨
    ∃ full full' ev n, evaluate e cs = .ok (full, ev, n) ∧ evaluate e cs' = .ok (full', ev, n) ∧
      List.Forall₂ SameProp full full' := by
  unfold evaluate
  simp only [sameCand_mask h, sameCand_select0 h]
  cases h1 : scatter ninf (cs'.map finiteMask) (e.logPrior (maskSelect (cs'.map finiteMask) (cs'.map (·.x)))) with
  | error x => exact Or.inl ⟨x, rfl, rfl⟩
  | ok logp =>
    simp only [bind, Except.bind, sameCand_select h logp]
    cases h2 : e.logLike (maskSelect (List.zipWith (fun m v => m && F.isfinite v) (cs'.map finiteMask) logp)
        (cs'.map (·.x))) with
    | error x => exact Or.inl ⟨x, rfl, rfl⟩
    | ok r =>
      obtain ⟨ll, bl⟩ := r
      simp only
      cases h3 : scatter ninf (List.zipWith (fun m v => m && F.isfinite v) (cs'.map finiteMask) logp) ll with
      | error x => exact Or.inl ⟨x, rfl, rfl⟩
      | ok logl =>
        simp only
        cases h4 : scatterBlobs e.haveBlobs bl (List.zipWith (fun m v => m && F.isfinite v) (cs'.map finiteMask) logp) with
        | error x => exact Or.inl ⟨x, rfl, rfl⟩
        | ok blobs =>
          refine Or.inr ⟨_, _, _, _, rfl, rfl, sameProp_zip h _ fun k c v hc hm hv => ?_⟩
          rw [List.getElem?_zip_eq_some] at hv
          obtain ⟨v1, v2⟩ := hv
          rw [List.getElem?_zip_eq_some] at v2
          have hm' : (cs'.map finiteMask)[k]? = some false := by
            rw [← sameCand_mask h, List.getElem?_map, hc]; simp [hm]
          have := (scatter_ok h3).2 k (by
            rw [List.getElem?_zipWith, hm', v2.1]; simp)
          rw [v1] at this
          simpa using this

theorem alpha_same (e : McmcEnv d B) {b : ℝ} (hβ : e.beta = fin b) (hb : 0 ≤ b) (mu : Pt d) (w : Walker d B)
    {p p' : Walker d B} (h : SameProp p p') :
    alpha e mu w p = alpha e mu w p' ∧ (p = p' ∨ alpha e mu w p = fin 0) := by
  rcases h with rfl | ⟨h1, h2⟩
  · exact ⟨rfl, Or.inl rfl⟩
  · have k1 := alpha_bad e b hβ hb mu w p (Or.inr h1)
    have k2 := alpha_bad e b hβ hb mu w p' (Or.inr h2)
    exact ⟨by rw [k1, k2], Or.inr k1⟩

theorem accept_same (e : McmcEnv d B) {b : ℝ} (hβ : e.beta = fin b) (hb : 0 ≤ b) (mu : Pt d) (ws : List (Walker d B))
    {full full' : List (Walker d B)} (h : List.Forall₂ SameProp full full') (r : ℕ → F)
    (hr : ∀ k, ∃ x : ℝ, r k = fin x ∧ 0 ≤ x) :
    ((ws.zip full).map fun q => alpha e mu q.1 q.2) = ((ws.zip full').map fun q => alpha e mu q.1 q.2) ∧
    ((ws.zip full).mapIdx fun k q => if r k < alpha e mu q.1 q.2 then q.2 else q.1) =
      ((ws.zip full').mapIdx fun k q => if r k < alpha e mu q.1 q.2 then q.2 else q.1) := by
  induction h generalizing ws r with
  | nil => simp
  | @cons p p' _ _ h _ ih =>
    cases ws with
    | nil => simp
    | cons w ws =>
      obtain ⟨i1, i2⟩ := ih ws (fun k => r (k + 1)) fun k => hr (k + 1)
      obtain ⟨a1, a2⟩ := alpha_same e hβ hb mu w h
      refine ⟨by simp [i1, a1], ?_⟩
      simp only [List.zip_cons_cons, List.mapIdx_cons]
      rw [i2, ← a1]
      rcases a2 with rfl | a2
      · rfl
      · obtain ⟨x, hx, hx0⟩ := hr 0
        have : ¬ r 0 < alpha e mu w p := by rw [a2, hx]; simpa using hx0
        rw [if_neg this, if_neg this]

theorem mcmcStep_unbounded {e : McmcEnv d B} (hs : e.scaler.Ok)
    (hl : ∀ i, i ∈ e.scaler.periodic.getD [] ∨ i ∈ e.scaler.reflective.getD [] →
      ∃ l h, e.scaler.low i = fin l ∧ e.scaler.high i = fin h) {b : ℝ} (hβ : e.beta = fin b) (hb : 0 ≤ b) (fuel : ℕ)
    (rnd : ℕ → Draw d) (hr : ∀ k, ∃ x : ℝ, (rnd k).rand = fin x ∧ 0 ≤ x) (i : ℕ) (st : McmcState d B) :
    mcmcStep e fuel rnd i st = mcmcStep (unbounded e) fuel rnd i st := by
  obtain ⟨cs, cs', h1, h2, h3⟩ := mapM_rel SameCand (candidate_unbounded hs hl fuel)
    (st.walkers.mapIdx fun k w => propose e st.sigma st.mu w (rnd k))
  unfold mcmcStep
  rw [h1, show (st.walkers.mapIdx fun k w => propose (unbounded e) st.sigma st.mu w (rnd k)) =
    (st.walkers.mapIdx fun k w => propose e st.sigma st.mu w (rnd k)) from rfl, h2]
  simp only [bind, Except.bind]
  rw [show evaluate (unbounded e) cs' = evaluate e cs' from rfl]
  rcases evaluate_same e h3 with ⟨x, g1, g2⟩ | ⟨full, full', ev, n, g1, g2, g3⟩
  · rw [g1, g2]
  · rw [g1, g2]
    obtain ⟨a1, a2⟩ := accept_same e hβ hb st.mu st.walkers g3 (fun k => (rnd k).rand) hr
    simp only [show alpha (unbounded e) = alpha e from rfl, a1, a2]
    rfl

theorem mcmcLoop_unbounded {e : McmcEnv d B} (hs : e.scaler.Ok)
    (hl : ∀ i, i ∈ e.scaler.periodic.getD [] ∨ i ∈ e.scaler.reflective.getD [] →
      ∃ l h, e.scaler.low i = fin l ∧ e.scaler.high i = fin h) {b : ℝ} (hβ : e.beta = fin b) (hb : 0 ≤ b) (fuel : ℕ)
    (rnd : ℕ → ℕ → Draw d) (hr : Uniform rnd) (i : ℕ) (st : McmcState d B) :
    mcmcLoop e fuel rnd i st = mcmcLoop (unbounded e) fuel rnd i st := by
  have hstep : ∀ i st, mcmcStep e fuel (rnd i) i st = mcmcStep (unbounded e) fuel (rnd i) i st := fun i st =>
    mcmcStep_unbounded hs hl hβ hb fuel (rnd i) (fun k => by
      obtain ⟨r, h1, h2, -⟩ := hr i k
      exact ⟨r, h1, h2⟩) i st
  fun_induction mcmcLoop e fuel rnd i st with
  | case1 i st x h =>
    rw [mcmcLoop, ← hstep, h]
  | case2 i st st1 h hstop =>
    rw [mcmcLoop, ← hstep, h]
    simp [hstop]
  | case3 i st st1 h hstop hn =>
    rw [mcmcLoop, ← hstep, h]
    simp only [hstop, Bool.false_eq_true, if_false]
    rw [if_pos (show (unbounded e).nMax ≤ i + 1 from hn)]
  | case4 i st st1 h hstop hn ih =>
    conv_rhs => rw [mcmcLoop, ← hstep, h]
    simp only [hstop, Bool.false_eq_true, if_false]
    rw [if_neg (show ¬ (unbounded e).nMax ≤ i + 1 from hn)]
    exact ih

/-- **C40** is false for whole MCMC phases: whatever parameters with two finite bounds are declared periodic or reflective,
and whatever the flow, the likelihood, the random numbers and the starting points, a call of any kernel returns exactly what
it returns when none is declared (particles, evaluated points, acceptance, scale, number of steps and calls, or the
exception). -/
theorem C40_kernel_ignores (e : McmcEnv d B) (hs : e.scaler.Ok)
    (hl : ∀ i, i ∈ e.scaler.periodic.getD [] ∨ i ∈ e.scaler.reflective.getD [] →
      ∃ l h, e.scaler.low i = fin l ∧ e.scaler.high i = fin h) (b : ℝ) (hβ : e.beta = fin b) (hb : 0 ≤ b) (fuel : ℕ)
    (rnd : ℕ → ℕ → Draw d) (hr : Uniform rnd) (ws : List (Walker d B)) :
    mcmc e fuel rnd ws =
      mcmc { e with scaler := { e.scaler with periodic := none, reflective := none } } fuel rnd ws := by
  change _ = mcmc (unbounded e) fuel rnd ws
  unfold mcmc
  rw [mcmcLoop_unbounded hs hl hβ hb fuel rnd hr]
  rfl

/-- Two parameters on the unit square, the first periodic and the second reflective. -/
noncomputable def exampleSquare (k : Kern) (ll : Pt 2 → F) : McmcEnv 2 Unit :=
  { exampleEnv k ll 0.5 with
    scaler := { low := fun _ => fin 0, high := fun _ => fin 1, periodic := some [0], reflective := some [1],
                transform := .logit, scale := false, affine := none } }

example (k : Kern) (ll : Pt 2 → F) := C40_kernel_ignores (exampleSquare k ll)
  ⟨fun i => ⟨by simp [exampleSquare], by simp [exampleSquare], fun l h hl hh => by
    simp only [exampleSquare, F.fin.injEq] at hl hh; subst hl hh; norm_num⟩, fun h => by simp [exampleSquare] at h⟩
  (fun i _ => ⟨0, 1, rfl, rfl⟩) 1 rfl zero_le_one 3
  (fun _ _ => { z := fun _ => fin 0, gamma := fin 1, rand := fin (1/2) })
  (fun _ _ => ⟨1/2, rfl, by norm_num, by norm_num⟩) [exampleWalker ll (1/2), exampleWalker ll (1/4)]

/-! ### C43, with a fitted scale -/

/-- **C43** is false at the bounds, also after `fit`: a point on a finite bound passes the check, and `forward` returns a
point with a non-finite coordinate; without scaling, or with the per-dimension scaling, that coordinate is the parameter on
its bound and is infinite. -/
theorem C43_bound_infinite_fitted (s : Scaler d) (hs : s.Ok) (x : Fin d → ℝ) (hx : Inside s.low s.high x) (i : Fin d)
    (hi : s.low i = fin (x i) ∨ s.high i = fin (x i)) :
    ∃ u : Pt d, s.forward [pt x] = .ok [u] ∧ (∃ j, (u j).isfinite = false) ∧
      ((s.scale = false ∨ ∃ mu sigma, s.affine = some (.diag mu sigma)) → u i = ninf ∨ u i = pinf) := by
  have hs0 : ({ s with scale := false } : Scaler d).Ok := ⟨hs.1, (fun h => by cases h)⟩
  obtain ⟨v, hv, hvi⟩ := C43_bound_infinite { s with scale := false } hs0 x hx i hi rfl
  have hwi : withinInterval s.low s.high [pt x] = true := by
    by_contra hc
    rw [Bool.not_eq_true] at hc
    have hc' : withinInterval ({ s with scale := false } : Scaler d).low ({ s with scale := false } : Scaler d).high [pt x] =
      false := hc
    simp [Scaler.forward, hc'] at hv
  have hv' : v = s.fwdRow (pt x) := by
    have hc' : withinInterval ({ s with scale := false } : Scaler d).low ({ s with scale := false } : Scaler d).high [pt x] =
      true := hwi
    simp [Scaler.forward, hc', Scaler.forwardRow] at hv
    rw [← hv]; rfl
  have hnf : (v i).isfinite = false := by rcases hvi with h | h <;> rw [h] <;> rfl
  cases hsc : s.scale with
  | false =>
    exact ⟨v, by simp [Scaler.forward, hwi, Scaler.forwardRow, hsc, hv'], ⟨i, hnf⟩, fun _ => hvi⟩
  | true =>
    obtain ⟨a, ha, hok⟩ := hs.2 hsc
    refine ⟨a.forward v, by simp [Scaler.forward, hwi, Scaler.forwardRow, hsc, ha, hv'],
      nf_affine_forward hok ⟨i, hnf⟩, ?_⟩
    rintro (h | ⟨mu, sigma, h⟩)
    · cases h
    · rw [ha, Option.some.injEq] at h
      subst h
      obtain ⟨m, t, rfl, rfl, ht⟩ := hok
      have hd : ∀ y : F, y = ninf ∨ y = pinf → (y - fin (m i)) / fin (t i) = ninf ∨ (y - fin (m i)) / fin (t i) = pinf := by
        have h0 := ht i
        rintro y (rfl | rfl)
        · left
          rw [ninf_sub_fin]
          exact if_neg (not_lt.mpr h0.le)
        · right
          rw [pinf_sub_fin]
          exact if_neg (not_lt.mpr h0.le)
      exact hd _ hvi

/-- The fitted example with its first parameter on the lower bound. -/
example := C43_bound_infinite_fitted exampleScaler exampleScaler_ok ![0, 0, 0, 7]
  (fun i => by fin_cases i <;> simp [exampleScaler, Scaler.init]) 0 (Or.inl rfl)

end Poco
