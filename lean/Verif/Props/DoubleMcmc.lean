import Verif.Spec.DoubleMcmc
import Verif.Lemmas.DoubleLogw
import Verif.Lemmas.Float
import Verif.Props.DoubleLogw
import Verif.Props.Mcmc

/-! # C131: rounding errors in the accept/reject decision -/

namespace Poco
open F Spec

variable {d : ℕ} {B : Type} {A : ArithLog}

/-- The error allowed for one operation. -/
noncomputable def opErr (M : ℝ) : ℝ := 32 * uu * (M + 1)

theorem uu_small : uu ≤ 2⁻¹ ^ 53 := by unfold uu; exact le_rfl

theorem eta_small : eta ≤ uu / 2 ^ 20 := by
  unfold eta uu
  have : (2⁻¹ : ℝ) ^ 1075 ≤ 2⁻¹ ^ 73 := pow_le_pow_of_le_one (by norm_num) (by norm_num) (by norm_num)
  calc (2⁻¹ : ℝ) ^ 1075 ≤ 2⁻¹ ^ 73 := this
    _ = _ := by norm_num

/-- One rounded addition in a chain of at most 11. -/
theorem chain_step (hA : IsDouble A.toArith) {a a' t t' M : ℝ} {k : ℕ} (hk : k ≤ 10) (hM : 0 ≤ M) (ha : |a' - a| ≤ k * opErr M) (hb : |a| ≤ k * M)
    (ht : |t' - t| ≤ 16 * uu * (M + 1)) (hbt : |t| ≤ M) :
    |A.rnd (a' + t') - (a + t)| ≤ (k + 1 : ℕ) * opErr M ∧ |a + t| ≤ (k + 1 : ℕ) * M := by
  have hu := uu_pos
  have hus := uu_small
  have he := eta_small
  have hr := hA.err (a' + t')
  have hk' : (k : ℝ) ≤ 10 := by exact_mod_cast hk
  have hkM : (k : ℝ) * M ≤ 10 * M := mul_le_mul_of_nonneg_right hk' hM
  have hE : opErr M ≤ 2⁻¹ ^ 40 * (M + 1) := by
    unfold opErr
    exact mul_le_mul_of_nonneg_right (by norm_num at hus ⊢; linarith) (by linarith)
  have hE0 : 0 ≤ opErr M := by unfold opErr; positivity
  have hkE : (k : ℝ) * opErr M ≤ 10 * opErr M := mul_le_mul_of_nonneg_right hk' hE0
  have hx : |a' + t'| ≤ 12 * (M + 1) := by
    have h1 : |a' + t'| ≤ |a' - a| + |a| + (|t' - t| + |t|) := by
      calc |a' + t'| = |((a' - a) + a) + ((t' - t) + t)| := by ring_nf
        _ ≤ |(a' - a) + a| + |(t' - t) + t| := abs_add_le _ _
        _ ≤ _ := add_le_add (abs_add_le _ _) (abs_add_le _ _)
    have h2 : 16 * uu * (M + 1) ≤ 2⁻¹ ^ 40 * (M + 1) := mul_le_mul_of_nonneg_right (by norm_num at hus ⊢; linarith) (by linarith)
    have h3 : (2⁻¹ : ℝ) ^ 40 * (M + 1) ≤ 1 / 100 * (M + 1) := mul_le_mul_of_nonneg_right (by norm_num) (by linarith)
    linarith
  have hux := mul_le_mul_of_nonneg_left hx hu.le
  constructor
  · have h1 : |A.rnd (a' + t') - (a + t)| ≤ |A.rnd (a' + t') - (a' + t')| + (|a' - a| + |t' - t|) := by
      calc |A.rnd (a' + t') - (a + t)| = |(A.rnd (a' + t') - (a' + t')) + ((a' - a) + (t' - t))| := by ring_nf
        _ ≤ _ := (abs_add_le _ _).trans (add_le_add le_rfl (abs_add_le _ _))
    push_cast
    have h4 : uu / 2 ^ 20 ≤ uu * (M + 1) := by
      rw [div_eq_mul_inv]
      exact mul_le_mul_of_nonneg_left (by norm_num; linarith) hu.le
    unfold opErr at *
    nlinarith
  · push_cast
    have := abs_add_le a t
    linarith

/-- The rounded product of a log-likelihood and the temperature. -/
theorem tempered_close (hA : IsDouble A.toArith) {l b M : ℝ} (hM : 0 ≤ M) (hl : |l| ≤ M) (hb : 0 ≤ b) (hb1 : b ≤ 1) :
    |A.rnd (l * b) - l * b| ≤ 16 * uu * (M + 1) ∧ |l * b| ≤ M := by
  have hu := uu_pos
  have he := eta_small
  have h1 : |l * b| ≤ M := by
    rw [abs_mul, abs_of_nonneg hb]
    calc |l| * b ≤ |l| * 1 := mul_le_mul_of_nonneg_left hb1 (abs_nonneg l)
      _ ≤ M := by rw [mul_one]; exact hl
  refine ⟨?_, h1⟩
  have := hA.err (l * b)
  have h2 := mul_le_mul_of_nonneg_left h1 hu.le
  have h4 : uu / 2 ^ 20 ≤ uu := by rw [div_le_iff₀ (by norm_num)]; nlinarith
  nlinarith

/-- `log(1 + q/nu)` in double precision. -/
theorem logArg_close (hA : IsDoubleLog A) {s : ℝ} (hs0 : 0 ≤ s) :
    1 ≤ A.rnd (1 + A.rnd s) ∧ |A.log (A.rnd (1 + A.rnd s)) - Real.log (1 + s)| ≤ 5 * uu + 2 * uu * Real.log (1 + s) := by
  have hu := uu_pos
  have hus := uu_small
  have he := eta_small
  have he0 := eta_pos
  have hs'0 : 0 ≤ A.rnd s := hA.double.nonneg hs0
  have es' : |A.rnd s - s| ≤ uu * s + eta := by have := hA.double.err s; rwa [abs_of_nonneg hs0] at this
  have h1 := hA.double.err (1 + A.rnd s)
  have hy1 : 1 ≤ A.rnd (1 + A.rnd s) := by
    have := hA.double.mono (show (1 : ℝ) ≤ 1 + A.rnd s by linarith)
    rwa [hA.double.one] at this
  refine ⟨hy1, ?_⟩
  have h0 := hA.log_near _ hy1
  generalize A.rnd (1 + A.rnd s) = y at *
  generalize A.rnd s = s' at *
  have ey : |y - (1 + s)| ≤ 3 * uu * (1 + s) := by
    rw [abs_of_nonneg (by linarith : 0 ≤ 1 + s')] at h1
    have h2 : |y - (1 + s)| ≤ |y - (1 + s')| + |s' - s| := by
      calc |y - (1 + s)| = |(y - (1 + s')) + (s' - s)| := by ring_nf
        _ ≤ _ := abs_add_le _ _
    have h3 : s' ≤ s + (uu * s + eta) := by linarith [(abs_le.mp es').2]
    have h4 : uu / 2 ^ 20 ≤ uu / 100 := by apply div_le_div_of_nonneg_left hu.le <;> norm_num
    have h5 : uu * s' ≤ uu * (s + (uu * s + eta)) := mul_le_mul_of_nonneg_left h3 hu.le
    have h6 : uu * (uu * s + eta) ≤ 1 / 100 * (uu * s + eta) := mul_le_mul_of_nonneg_right (by norm_num at hus; linarith) (by positivity)
    have h7 : 0 ≤ uu * s := by positivity
    linarith
  have hL0 : 0 ≤ Real.log (1 + s) := Real.log_nonneg (by linarith)
  have eL : |Real.log y - Real.log (1 + s)| ≤ 4 * uu := by
    have hp : 0 < 1 + s := by linarith
    have hr : |y / (1 + s) - 1| ≤ 3 * uu := by
      rw [show y / (1 + s) - 1 = (y - (1 + s)) / (1 + s) by field_simp, abs_div, abs_of_pos hp, div_le_iff₀ hp]
      exact ey
    have hyp : 0 < y := by linarith
    rw [← Real.log_div hyp.ne' hp.ne']
    have hz0 : 0 < y / (1 + s) := div_pos hyp hp
    generalize y / (1 + s) = z at *
    have hz1 := abs_le.mp hr
    have u1 := Real.log_le_sub_one_of_pos hz0
    have u2 := Real.one_sub_inv_le_log_of_pos hz0
    have hz2 : 99 / 100 ≤ z := by norm_num at hus; linarith
    have hinv : z⁻¹ - 1 ≤ 4 * uu := by
      rw [inv_eq_one_div, div_sub_one hz0.ne', div_le_iff₀ hz0]
      nlinarith
    rw [abs_le]; constructor <;> linarith
  have h52 : (2⁻¹ : ℝ) ^ 52 = 2 * uu := by unfold uu; norm_num
  rw [h52] at h0
  generalize A.log y = L' at *
  generalize Real.log (1 + s) = L at *
  generalize Real.log y = Y at *
  have h2 : |L' - L| ≤ |L' - Y| + |Y - L| := by
    calc |L' - L| = |(L' - Y) + (Y - L)| := by ring_nf
      _ ≤ _ := abs_add_le _ _
  have h3 : Y ≤ L + 4 * uu := by linarith [(abs_le.mp eL).2]
  have h4 := mul_le_mul_of_nonneg_left h3 (by linarith : (0 : ℝ) ≤ 2 * uu)
  have h5 : uu * (8 * uu) ≤ uu * 1 := mul_le_mul_of_nonneg_left (by norm_num at hus; linarith) hu.le
  linarith

/-- `-(n_dim+nu)/2` in double precision. -/
theorem halfDof_close (hA : IsDoubleLog A) {t : ℝ} (ht : 0 ≤ t) : |A.rnd (-A.rnd t / 2) - -(t / 2)| ≤ 3 * uu * (t / 2) + eta * 2 := by
  have hu := uu_pos
  have hus := uu_small
  have he0 := eta_pos
  have en : |A.rnd t - t| ≤ uu * t + eta := by have := hA.double.err t; rwa [abs_of_nonneg ht] at this
  have h1 := hA.double.err (-A.rnd t / 2)
  generalize A.rnd (-A.rnd t / 2) = c' at *
  generalize A.rnd t = n at *
  have h2 : |-n / 2| ≤ t / 2 + (uu * t + eta) / 2 := by
    rw [abs_div, abs_neg, abs_two, div_le_iff₀ two_pos]
    have : |n| ≤ |n - t| + |t| := by
      calc |n| = |(n - t) + t| := by ring_nf
        _ ≤ _ := abs_add_le _ _
    rw [abs_of_nonneg ht] at this
    linarith
  have h3 : |c' - -(t / 2)| ≤ |c' - -n / 2| + |n - t| / 2 := by
    have : |n - t| / 2 = |-(n / 2 - t / 2)| := by rw [abs_neg, show n / 2 - t / 2 = (n - t) / 2 by ring, abs_div, abs_two]
    rw [this]
    calc |c' - -(t / 2)| = |(c' - -n / 2) + -(n / 2 - t / 2)| := by ring_nf
      _ ≤ _ := abs_add_le _ _
  have h4 := mul_le_mul_of_nonneg_left h2 hu.le
  have h5 : uu * ((uu * t + eta) / 2) ≤ 1 / 100 * ((uu * t + eta) / 2) := mul_le_mul_of_nonneg_right (by norm_num at hus; linarith) (by positivity)
  have h6 : 0 ≤ uu * t := by positivity
  linarith

/-- A product of two approximate factors. -/
theorem prod_close {c c' L L' M : ℝ} (hc : 1 / 2 ≤ c) (hcM : c ≤ M) (hL0 : 0 ≤ L) (hcL : c * L ≤ M)
    (ec : |c' - -c| ≤ 3 * uu * c + eta * 2) (eL : |L' - L| ≤ 5 * uu + 2 * uu * L) :
    |c' * L' - -(c * L)| ≤ 12.1 * (uu * (M + 1)) ∧ |c' * L'| ≤ 2 * (M + 1) := by
  have hu := uu_pos
  have hus : uu ≤ 1 / 1000 := uu_small.trans (by norm_num)
  have he := eta_small
  have he0 := eta_pos
  have hM0 : 0 ≤ M := by linarith
  have hcL0 : 0 ≤ c * L := by positivity
  have hL'b : |L'| ≤ 1.1 * L + 1 / 100 := by
    have h1 : |L'| ≤ |L' - L| + |L| := by
      calc |L'| = |(L' - L) + L| := by ring_nf
        _ ≤ _ := abs_add_le _ _
    rw [abs_of_nonneg hL0] at h1
    have h2 : uu * L ≤ 1 / 1000 * L := mul_le_mul_of_nonneg_right hus hL0
    linarith
  have hLM : L ≤ 2 * M := by
    have h1 : 1 / 2 * L ≤ c * L := mul_le_mul_of_nonneg_right hc hL0
    linarith
  have p0 : 0 ≤ uu * c := by positivity
  have h1 : |c' * L' - -(c * L)| ≤ (3 * uu * c + eta * 2) * (1.1 * L + 1 / 100) + c * (5 * uu + 2 * uu * L) := by
    rw [show c' * L' - -(c * L) = (c' - -c) * L' + -c * (L' - L) by ring]
    refine (abs_add_le _ _).trans (add_le_add ?_ ?_)
    · rw [abs_mul]; exact mul_le_mul ec hL'b (abs_nonneg _) (by positivity)
    · rw [abs_mul, abs_neg, abs_of_pos (by linarith : 0 < c)]; exact mul_le_mul_of_nonneg_left eL (by linarith)
  have e1 : (3 * uu * c + eta * 2) * (1.1 * L + 1 / 100) + c * (5 * uu + 2 * uu * L) =
      5.3 * (uu * (c * L)) + 5.03 * (uu * c) + eta * (2.2 * L + 1 / 50) := by ring
  have h2 : eta * (2.2 * L + 1 / 50) ≤ uu / 2 ^ 20 * (5 * (M + 1)) := mul_le_mul he (by linarith) (by positivity) (by positivity)
  have h3 : uu / 2 ^ 20 * (5 * (M + 1)) = 5 / 2 ^ 20 * (uu * (M + 1)) := by ring
  have h4 := mul_le_mul_of_nonneg_left hcL hu.le
  have h5 := mul_le_mul_of_nonneg_left hcM hu.le
  have h6 : 0 ≤ uu * M := by positivity
  have h7 : uu * (M + 1) = uu * M + uu := by ring
  have hp : |c' * L' - -(c * L)| ≤ 12.1 * (uu * (M + 1)) := by
    have : (5 : ℝ) / 2 ^ 20 * (uu * (M + 1)) ≤ 1 / 100 * (uu * (M + 1)) := mul_le_mul_of_nonneg_right (by norm_num) (by positivity)
    linarith
  refine ⟨hp, ?_⟩
  have h8 : |c' * L'| ≤ |c' * L' - -(c * L)| + |-(c * L)| := by
    calc |c' * L'| = |(c' * L' - -(c * L)) + -(c * L)| := by ring_nf
      _ ≤ _ := abs_add_le _ _
  rw [abs_neg, abs_of_nonneg hcL0] at h8
  have h9 : uu * (M + 1) ≤ 1 / 1000 * (M + 1) := mul_le_mul_of_nonneg_right hus (by linarith)
  linarith

/-- The t factor. -/
theorem tFactorD_close (hA : IsDoubleLog A) {nu q M : ℝ} (hd1 : 0 < d) (hnu : 0 < nu) (hM : d + nu ≤ M) (hq : 0 ≤ q)
    (ht : (d + nu) / 2 * Real.log (1 + q / nu) ≤ M) :
    ∃ t', tFactorD A d (fin nu) (fin q) = fin t' ∧ |t' - -((d + nu) / 2 * Real.log (1 + q / nu))| ≤ 16 * uu * (M + 1) ∧
      |-((d + nu) / 2 * Real.log (1 + q / nu))| ≤ M := by
  have hd : (1 : ℝ) ≤ d := by exact_mod_cast hd1
  have hs0 : 0 ≤ q / nu := div_nonneg hq hnu.le
  obtain ⟨hy1, eL⟩ := logArg_close hA hs0
  have ec := halfDof_close hA (t := d + nu) (by linarith)
  have hL0 : 0 ≤ Real.log (1 + q / nu) := Real.log_nonneg (by linarith)
  obtain ⟨hp, hb⟩ := prod_close (by linarith) (by linarith) hL0 ht ec eL
  refine ⟨A.rnd (A.rnd (-A.rnd (d + nu) / 2) * A.log (A.rnd (1 + A.rnd (q / nu)))), ?_, ?_, ?_⟩
  · unfold tFactorD
    have e1 : (fin q / fin nu : F) = fin (q / nu) := fin_div _ _ hnu.ne'
    have e2 : (fin (-A.rnd (d + nu)) / fin 2 : F) = fin (-A.rnd (d + nu) / 2) := fin_div _ _ two_ne_zero
    have e3 : (F.ofNat d + fin nu : F) = fin (d + nu) := rfl
    have e4 : A.logF (fin (A.rnd (1 + A.rnd (q / nu)))) = fin (A.log (A.rnd (1 + A.rnd (q / nu)))) := by
      show (if A.rnd (1 + A.rnd (q / nu)) < 0 then nan else if A.rnd (1 + A.rnd (q / nu)) = 0 then ninf else fin _) = _
      rw [if_neg (by linarith), if_neg (by linarith)]
    rw [e1, e3]
    simp only [Arith.round, fin_add, fin_neg]
    rw [e2, e4]
    simp only [fin_mul]
  · have hr := hA.double.err (A.rnd (-A.rnd (d + nu) / 2) * A.log (A.rnd (1 + A.rnd (q / nu))))
    generalize A.rnd (-A.rnd (d + nu) / 2) * A.log (A.rnd (1 + A.rnd (q / nu))) = x at *
    have hu := uu_pos
    have he := eta_small
    have h4 : uu / 2 ^ 20 ≤ uu / 100 := by apply div_le_div_of_nonneg_left hu.le <;> norm_num
    have h5 := mul_le_mul_of_nonneg_left hb hu.le
    have h6 : uu ≤ uu * (M + 1) := le_mul_of_one_le_right hu.le (by linarith)
    generalize (d + nu) / 2 * Real.log (1 + q / nu) = t at *
    have h7 : |A.rnd x - -t| ≤ |A.rnd x - x| + |x - -t| := by
      calc |A.rnd x - -t| = |(A.rnd x - x) + (x - -t)| := by ring_nf
        _ ≤ _ := abs_add_le _ _
    linarith
  · rw [abs_neg, abs_of_nonneg (by positivity)]; exact ht

/-- One rounded subtraction in such a chain. -/
theorem chain_sub (hA : IsDouble A.toArith) {a a' t t' M : ℝ} {k : ℕ} (hk : k ≤ 10) (hM : 0 ≤ M) (ha : |a' - a| ≤ k * opErr M ∧ |a| ≤ k * M)
    (ht : |t' - t| ≤ 16 * uu * (M + 1) ∧ |t| ≤ M) :
    |A.rnd (a' - t') - (a - t)| ≤ (k + 1 : ℕ) * opErr M ∧ |a - t| ≤ (k + 1 : ℕ) * M := by
  rw [sub_eq_add_neg a' t', sub_eq_add_neg a t]
  refine chain_step hA hk hM ha.1 ha.2 ?_ (by rw [abs_neg]; exact ht.2)
  rw [show -t' - -t = -(t' - t) by ring, abs_neg]
  exact ht.1

theorem chain_add (hA : IsDouble A.toArith) {a a' t t' M : ℝ} {k : ℕ} (hk : k ≤ 10) (hM : 0 ≤ M) (ha : |a' - a| ≤ k * opErr M ∧ |a| ≤ k * M)
    (ht : |t' - t| ≤ 16 * uu * (M + 1) ∧ |t| ≤ M) :
    |A.rnd (a' + t') - (a + t)| ≤ (k + 1 : ℕ) * opErr M ∧ |a + t| ≤ (k + 1 : ℕ) * M := chain_step hA hk hM ha.1 ha.2 ht.1 ht.2

theorem exact_term {t M : ℝ} (hM : 0 ≤ M) (h : |t| ≤ M) : |t - t| ≤ 16 * uu * (M + 1) ∧ |t| ≤ M := by
  have := uu_pos
  exact ⟨by rw [sub_self, abs_zero]; positivity, h⟩

/-- The exact exponent. -/
noncomputable def exactExponent (k : Kern) (d : ℕ) (b nu : ℝ) (w p : Judged) : ℝ :=
  b * (p.logl - w.logl) + (p.logp - w.logp) + (p.logdetj - w.logdetj)
    + (if k.hasFlow then p.logdetjFlow - w.logdetjFlow else 0)
    + (if k.isPcn then (d + nu) / 2 * (Real.log (1 + p.q / nu) - Real.log (1 + w.q / nu)) else 0)

theorem exponentD_close (hA : IsDoubleLog A) (e : McmcEnv d B) {b nu M : ℝ} (hb : e.beta = fin b) (hb0 : 0 ≤ b) (hb1 : b ≤ 1) (hnu : e.tNu = fin nu)
    (hd : 0 < d) (hnu0 : 0 < nu) (hM : d + nu ≤ M) {w p : Walker d B} {jw jp : Judged} (hw : Carries w jw) (hp : Carries p jp)
    (bw : jw.Bounded d nu M) (bp : jp.Bounded d nu M) :
    ∃ x, metropolisExponentD A e (fin jp.q) (fin jw.q) w p = fin x ∧ |x - exactExponent e.kernel d b nu jw jp| ≤ 10 * opErr M := by
  have hM0 : 0 ≤ M := by
    have : (0 : ℝ) ≤ d := Nat.cast_nonneg d
    linarith
  obtain ⟨tp, e1, c1⟩ := tFactorD_close hA hd hnu0 hM bp.q bp.t
  obtain ⟨tw, e2, c2⟩ := tFactorD_close hA hd hnu0 hM bw.q bw.t
  have s1 : |A.rnd (jp.logl * b) - jp.logl * b| ≤ (1 : ℕ) * opErr M ∧ |jp.logl * b| ≤ (1 : ℕ) * M := by
    obtain ⟨h1, h2⟩ := tempered_close hA.double hM0 bp.logl hb0 hb1
    have hu := uu_pos
    refine ⟨h1.trans ?_, by rw [Nat.cast_one, one_mul]; exact h2⟩
    have : 0 ≤ uu * (M + 1) := by positivity
    rw [opErr, Nat.cast_one, one_mul]; linarith
  have s2 := chain_sub hA.double (by norm_num) hM0 s1 (tempered_close hA.double hM0 bw.logl hb0 hb1)
  have s3 := chain_add hA.double (by norm_num) hM0 s2 (exact_term hM0 bp.logp)
  have s4 := chain_sub hA.double (by norm_num) hM0 s3 (exact_term hM0 bw.logp)
  have s5 := chain_add hA.double (by norm_num) hM0 s4 (exact_term hM0 bp.logdetj)
  have s6 := chain_sub hA.double (by norm_num) hM0 s5 (exact_term hM0 bw.logdetj)
  have s7 := chain_add hA.double (by norm_num) hM0 s6 (exact_term hM0 bp.logdetjFlow)
  have s8 := chain_sub hA.double (by norm_num) hM0 s7 (exact_term hM0 bw.logdetjFlow)
  have s9 := chain_sub hA.double (by norm_num) hM0 s8 c1
  have s10 := chain_add hA.double (by norm_num) hM0 s9 c2
  have r9 := chain_sub hA.double (by norm_num) hM0 s6 c1
  have r10 := chain_add hA.double (by norm_num) hM0 r9 c2
  have hE : 0 ≤ opErr M := by have := uu_pos; unfold opErr; positivity
  have wide : ∀ {x y : ℝ} {k : ℕ}, k ≤ 10 → |x - y| ≤ k * opErr M → |x - y| ≤ 10 * opErr M := fun hk h =>
    h.trans (mul_le_mul_of_nonneg_right (by exact_mod_cast hk) hE)
  unfold metropolisExponentD
  rw [hb, hnu, hw.logl, hw.logp, hw.logdetj, hw.logdetjFlow, hp.logl, hp.logp, hp.logdetj, hp.logdetjFlow, e1, e2]
  simp only [fin_mul, Arith.round, fin_sub, fin_add]
  unfold exactExponent
  cases hk : e.kernel
  · refine ⟨_, rfl, ?_⟩
    convert wide le_rfl s10.1 using 2
    simp only [Kern.hasFlow, Kern.isPcn, if_true]
    ring
  · refine ⟨_, rfl, ?_⟩
    convert wide (by norm_num) s8.1 using 2
    simp [Kern.hasFlow, Kern.isPcn]
    ring
  · refine ⟨_, rfl, ?_⟩
    convert wide (by norm_num) r10.1 using 2
    simp [Kern.hasFlow, Kern.isPcn]
    ring
  · refine ⟨_, rfl, ?_⟩
    convert wide (by norm_num) s6.1 using 2
    simp [Kern.hasFlow, Kern.isPcn]
    ring

theorem min_exp_lip (x y : ℝ) : |min 1 (Real.exp x) - min 1 (Real.exp y)| ≤ |x - y| := by
  wlog h : y ≤ x with H
  · rw [abs_sub_comm, abs_sub_comm x]; exact H y x (le_of_not_ge h)
  have h1 : min 1 (Real.exp y) ≤ min 1 (Real.exp x) := min_le_min le_rfl (Real.exp_le_exp.mpr h)
  rw [abs_of_nonneg (by linarith), abs_of_nonneg (by linarith)]
  rcases le_total 0 y with hy | hy
  · rw [min_eq_left (Real.one_le_exp hy), min_eq_left (Real.one_le_exp (hy.trans h))]; linarith
  · rw [min_eq_right (Real.exp_le_one_iff.mpr hy)]
    have h2 : min 1 (Real.exp x) ≤ 1 := min_le_left _ _
    have h3 : min 1 (Real.exp x) ≤ Real.exp x := min_le_right _ _
    have hey : Real.exp y ≤ 1 := Real.exp_le_one_iff.mpr hy
    rcases le_total x 0 with hx | hx
    · have h4 : Real.exp y = Real.exp x * Real.exp (y - x) := by rw [← Real.exp_add]; ring_nf
      have h5 := Real.add_one_le_exp (y - x)
      have h6 := Real.exp_le_one_iff.mpr hx
      have h7 := mul_le_mul_of_nonneg_left h5 (Real.exp_pos x).le
      have h8 : Real.exp x * (x - y) ≤ 1 * (x - y) := mul_le_mul_of_nonneg_right h6 (by linarith)
      nlinarith
    · have h5 := Real.add_one_le_exp y
      linarith

/-- **C131.** In double precision, with log-densities, Jacobians and degrees of freedom of size at most `M`, the computed acceptance probability is a
number `a` in `[0, 1]` that differs from the exact one by at most `2^-43 (M + 1)`; so the decision differs from the exact decision only when the
random number falls into an interval of that half-width, and of the `2^53` values of `np.random.rand()` the share that accepts differs from the
exact acceptance probability by at most `2^-42 (M + 1)`. -/
theorem C131_decision (hA : IsDoubleLog A) (hexp : ∀ x, 0 ≤ x → 1 ≤ A.exp x) (e : McmcEnv d B) {b nu M : ℝ} (hb : e.beta = fin b) (hb0 : 0 ≤ b)
    (hb1 : b ≤ 1) (hnu : e.tNu = fin nu) (hd : 0 < d) (hnu0 : 0 < nu) (hM : d + nu ≤ M) {w p : Walker d B} {jw jp : Judged}
    (hw : Carries w jw) (hp : Carries p jp) (bw : jw.Bounded d nu M) (bp : jp.Bounded d nu M) :
    ∃ a, alphaD A e (fin jp.q) (fin jw.q) w p = fin a ∧ 0 ≤ a ∧ a ≤ 1 ∧
      |a - exactAlpha e.kernel d b nu jw jp| ≤ 2⁻¹ ^ 43 * (M + 1) ∧
      (∀ u : ℝ, ¬(u < a ↔ u < exactAlpha e.kernel d b nu jw jp) → |u - exactAlpha e.kernel d b nu jw jp| ≤ 2⁻¹ ^ 43 * (M + 1)) ∧
      |((Finset.range (2 ^ 53)).filter fun k : ℕ => (k : ℝ) / 2 ^ 53 < a).card / 2 ^ 53 - exactAlpha e.kernel d b nu jw jp|
        ≤ 2⁻¹ ^ 42 * (M + 1) := by
  obtain ⟨x, hx, hc⟩ := exponentD_close hA e hb hb0 hb1 hnu hd hnu0 hM hw hp bw bp
  have hM0 : 0 ≤ M := by
    have : (0 : ℝ) ≤ d := Nat.cast_nonneg d
    linarith
  have hα : exactAlpha e.kernel d b nu jw jp = min 1 (Real.exp (exactExponent e.kernel d b nu jw jp)) := rfl
  have hα0 : 0 ≤ exactAlpha e.kernel d b nu jw jp := by rw [hα]; exact le_min zero_le_one (Real.exp_pos _).le
  have hα1 : exactAlpha e.kernel d b nu jw jp ≤ 1 := by rw [hα]; exact min_le_left _ _
  have hl := min_exp_lip x (exactExponent e.kernel d b nu jw jp)
  rw [← hα] at hl
  generalize exactAlpha e.kernel d b nu jw jp = α at *
  have ha : ∃ a, alphaD A e (fin jp.q) (fin jw.q) w p = fin a ∧ 0 ≤ a ∧ a ≤ 1 ∧ |a - min 1 (Real.exp x)| ≤ 2⁻¹ ^ 51 := by
    unfold alphaD
    rw [hx]
    simp only [Arith.expF, F.minimum, F.isnan, Bool.false_eq_true, if_false, fin_le]
    rcases le_total 0 x with h | h
    · refine ⟨1, ?_, zero_le_one, le_rfl, ?_⟩
      · rw [if_pos (hexp x h), if_neg (by simp)]
      · rw [min_eq_left (Real.one_le_exp h), sub_self, abs_zero]; positivity
    · have hr := hA.double.exp_range x h
      have hn := hA.double.exp_near x h
      have h1 := Real.exp_le_one_iff.mpr h
      have h2 : (2⁻¹ : ℝ) ^ 1074 ≤ 2⁻¹ ^ 52 := pow_le_pow_of_le_one (by norm_num) (by norm_num) (by norm_num)
      have h3 : (2⁻¹ : ℝ) ^ 52 * Real.exp x ≤ 2⁻¹ ^ 52 * 1 := mul_le_mul_of_nonneg_left h1 (by positivity)
      refine ⟨A.exp x, ?_, hr.1, hr.2, ?_⟩
      · by_cases hc : 1 ≤ A.exp x
        · rw [if_pos hc, if_neg (by simp), le_antisymm hr.2 hc]
        · rw [if_neg hc, if_neg (by simp)]
      · rw [min_eq_right h1]
        refine hn.trans ?_
        generalize (2⁻¹ : ℝ) ^ 1074 = t at *
        norm_num at h2 h3 ⊢
        linarith
  obtain ⟨a, h1, h2, h3, h4⟩ := ha
  have hclose : |a - α| ≤ 2⁻¹ ^ 43 * (M + 1) := by
    have h5 : |a - α| ≤ |a - min 1 (Real.exp x)| + |min 1 (Real.exp x) - α| := by
      calc |a - α| = |(a - min 1 (Real.exp x)) + (min 1 (Real.exp x) - α)| := by ring_nf
        _ ≤ _ := abs_add_le _ _
    have h6 : 10 * opErr M ≤ 2⁻¹ ^ 44 * (M + 1) := by
      unfold opErr uu
      rw [← mul_assoc, ← mul_assoc]
      exact mul_le_mul_of_nonneg_right (by norm_num) (by linarith)
    have h7 : (2⁻¹ : ℝ) ^ 51 ≤ 2⁻¹ ^ 44 * (M + 1) := by
      calc (2⁻¹ : ℝ) ^ 51 ≤ 2⁻¹ ^ 44 * 1 := by norm_num
        _ ≤ _ := mul_le_mul_of_nonneg_left (by linarith) (by positivity)
    have h8 : (2⁻¹ : ℝ) ^ 43 * (M + 1) = 2⁻¹ ^ 44 * (M + 1) + 2⁻¹ ^ 44 * (M + 1) := by ring
    linarith
  refine ⟨a, h1, h2, h3, hclose, fun u hu => ?_, ?_⟩
  · have h5 := abs_le.mp hclose
    by_cases hua : u < a
    · have : ¬ u < α := fun h => hu ⟨fun _ => h, fun _ => hua⟩
      rw [abs_le]; constructor <;> linarith
    · have : u < α := by
        by_contra h
        exact hu ⟨fun h' => absurd h' hua, fun h' => absurd h' h⟩
      rw [abs_le]; constructor <;> linarith
  · have hset : (Finset.range (2 ^ 53)).filter (fun k : ℕ => (k : ℝ) / 2 ^ 53 < a) = Finset.range ⌈a * 2 ^ 53⌉₊ := by
      ext k
      rw [Finset.mem_filter, Finset.mem_range, Finset.mem_range, Nat.lt_ceil, div_lt_iff₀ (by norm_num)]
      refine ⟨fun h => h.2, fun h => ⟨?_, h⟩⟩
      have : (k : ℝ) < 2 ^ 53 := lt_of_lt_of_le h (by nlinarith)
      exact_mod_cast this
    rw [hset, Finset.card_range]
    have hp : (0 : ℝ) ≤ a * 2 ^ 53 := by positivity
    have u1 := Nat.le_ceil (a * 2 ^ 53)
    have u2 := Nat.ceil_lt_add_one hp
    have hd1 : |(⌈a * 2 ^ 53⌉₊ : ℝ) / 2 ^ 53 - a| ≤ 2⁻¹ ^ 53 := by
      rw [show (⌈a * 2 ^ 53⌉₊ : ℝ) / 2 ^ 53 - a = ((⌈a * 2 ^ 53⌉₊ : ℝ) - a * 2 ^ 53) / 2 ^ 53 by ring, abs_div, abs_of_nonneg (by linarith),
        abs_of_pos (by norm_num : (0 : ℝ) < 2 ^ 53), div_le_iff₀ (by norm_num)]
      norm_num at u2 ⊢
      linarith
    have h5 : |(⌈a * 2 ^ 53⌉₊ : ℝ) / 2 ^ 53 - α| ≤ |(⌈a * 2 ^ 53⌉₊ : ℝ) / 2 ^ 53 - a| + |a - α| := by
      calc _ = |((⌈a * 2 ^ 53⌉₊ : ℝ) / 2 ^ 53 - a) + (a - α)| := by ring_nf
        _ ≤ _ := abs_add_le _ _
    have h7 : (2⁻¹ : ℝ) ^ 53 ≤ 2⁻¹ ^ 43 * (M + 1) := by
      calc (2⁻¹ : ℝ) ^ 53 ≤ 2⁻¹ ^ 43 * 1 := by norm_num
        _ ≤ _ := mul_le_mul_of_nonneg_left (by linarith) (by positivity)
    have h8 : (2⁻¹ : ℝ) ^ 42 * (M + 1) = 2⁻¹ ^ 43 * (M + 1) + 2⁻¹ ^ 43 * (M + 1) := by ring
    linarith

theorem notp_add {a x : F} (ha : a ≠ pinf) (hx : x ≠ pinf) : A.round (a + x) ≠ pinf := by
  cases a <;> cases x <;> first | (exact absurd rfl ha) | (exact absurd rfl hx) | (intro h; cases h)

theorem notp_sub {a : F} (ha : a ≠ pinf) (r : ℝ) : A.round (a - fin r) ≠ pinf := by
  cases a <;> first | (exact absurd rfl ha) | (intro h; cases h)

/-- -inf and NaN stay, when nothing infinite is added. -/
theorem bad_add {a x : F} (ha : a ≠ pinf) (hx : x ≠ pinf) (h : (a = nan ∨ a = ninf) ∨ (x = nan ∨ x = ninf)) :
    A.round (a + x) = nan ∨ A.round (a + x) = ninf := by
  cases a <;> cases x <;> first
    | (exact absurd rfl ha) | (exact absurd rfl hx) | (exact Or.inl rfl) | (exact Or.inr rfl)
    | (rcases h with (h | h) | (h | h) <;> cases h)

theorem bad_sub {a : F} (h : a = nan ∨ a = ninf) (r : ℝ) : A.round (a - fin r) = nan ∨ A.round (a - fin r) = ninf := by
  rcases h with rfl | rfl
  · exact Or.inl rfl
  · exact Or.inr rfl

/-- **C131**, invalid proposals: a proposal whose log-likelihood or log-prior is NaN or -inf (and none of whose numbers is +inf) has computed
acceptance probability 0, so it is never accepted; the walker's own numbers are finite. -/
theorem C131_invalid (hA : IsDoubleLog A) (e : McmcEnv d B) {b nu : ℝ} (hb : e.beta = fin b) (hb0 : 0 < b) (hnu : e.tNu = fin nu) (hd : 0 < d)
    (hnu0 : 0 < nu) {w p : Walker d B} {jw : Judged} (hw : Carries w jw) (hq : 0 ≤ jw.q) {qp : ℝ} (hqp : 0 ≤ qp)
    (hbad : (p.logl = nan ∨ p.logl = ninf) ∨ (p.logp = nan ∨ p.logp = ninf))
    (h1 : p.logl ≠ pinf) (h2 : p.logp ≠ pinf) (h3 : p.logdetj ≠ pinf) (h4 : p.logdetjFlow ≠ pinf) :
    alphaD A e (fin qp) (fin jw.q) w p = fin 0 := by
  have key : metropolisExponentD A e (fin qp) (fin jw.q) w p = nan ∨ metropolisExponentD A e (fin qp) (fin jw.q) w p = ninf := by
    obtain ⟨tp, e1, -⟩ := tFactorD_close hA hd hnu0 (le_max_left _ ((d + nu) / 2 * Real.log (1 + qp / nu))) hqp (le_max_right _ _)
    obtain ⟨tw, e2, -⟩ := tFactorD_close hA hd hnu0 (le_max_left _ ((d + nu) / 2 * Real.log (1 + jw.q / nu))) hq (le_max_right _ _)
    unfold metropolisExponentD
    rw [hb, hnu, hw.logl, hw.logp, hw.logdetj, hw.logdetjFlow, e1, e2]
    have hl : A.round (p.logl * fin b) ≠ pinf ∧ ((p.logl = nan ∨ p.logl = ninf) → A.round (p.logl * fin b) = nan ∨ A.round (p.logl * fin b) = ninf) := by
      cases hpl : p.logl with
      | nan => exact ⟨fun h => by (cases h), fun _ => Or.inl rfl⟩
      | ninf =>
        have : (ninf * fin b : F) = ninf := by
          show F.mul ninf (fin b) = ninf
          simp [F.mul, infMul, hb0, hb0.ne', hb0.not_gt]
        rw [this]
        exact ⟨fun h => by (cases h), fun _ => Or.inr rfl⟩
      | pinf => exact absurd hpl h1
      | fin r => exact ⟨fun h => by (cases h), fun h => by (rcases h with h | h <;> cases h)⟩
    have n1 : A.round (A.round (p.logl * fin b) - A.round (fin jw.logl * fin b)) ≠ pinf := notp_sub hl.1 _
    have n2 := notp_add (A := A) n1 h2
    have g2 : A.round (A.round (A.round (p.logl * fin b) - A.round (fin jw.logl * fin b)) + p.logp) = nan ∨
        A.round (A.round (A.round (p.logl * fin b) - A.round (fin jw.logl * fin b)) + p.logp) = ninf := by
      refine bad_add n1 h2 (hbad.imp (fun h => ?_) id)
      exact bad_sub (hl.2 h) _
    have n3 := notp_sub (A := A) n2 jw.logp
    have g3 := bad_sub (A := A) g2 jw.logp
    have n4 := notp_add (A := A) n3 h3
    have g4 := bad_add (A := A) n3 h3 (Or.inl g3)
    have n5 := notp_sub (A := A) n4 jw.logdetj
    have g5 := bad_sub (A := A) g4 jw.logdetj
    have n6 := notp_add (A := A) n5 h4
    have g6 := bad_add (A := A) n5 h4 (Or.inl g5)
    have g7 := bad_sub (A := A) g6 jw.logdetjFlow
    have n7 := notp_sub (A := A) n6 jw.logdetjFlow
    cases e.kernel
    · exact bad_add (notp_sub n7 tp) (by simp) (Or.inl (bad_sub g7 tp))
    · exact g7
    · exact bad_add (notp_sub n5 tp) (by simp) (Or.inl (bad_sub g5 tp))
    · exact g5
  unfold alphaD
  rcases key with h | h
  · rw [h]
    simp [Arith.expF, F.minimum, F.isnan]
  · rw [h]
    simp [Arith.expF, F.minimum, F.isnan]

/-- The exact acceptance probability is the one of the model without rounding. -/
theorem C131_exact (e : McmcEnv d B) {b nu : ℝ} (hb : e.beta = fin b) (hnu : e.tNu = fin nu) (hnu0 : 0 < nu) (mu : Pt d) {w p : Walker d B}
    {jw jp : Judged} (hw : Carries w jw) (hp : Carries p jp) (hqw : quad e mu w.theta = fin jw.q) (hqp : quad e mu p.theta = fin jp.q)
    (h1 : 0 ≤ jw.q) (h2 : 0 ≤ jp.q) : alpha e mu w p = fin (exactAlpha e.kernel d b nu jw jp) := by
  have ht : ∀ (θ : Pt d) (q : ℝ), quad e mu θ = fin q → 0 ≤ q → tFactor e mu θ = fin (-((d + nu) / 2 * Real.log (1 + q / nu))) := by
    intro θ q h hq
    unfold tFactor
    have hs : 0 ≤ q / nu := div_nonneg hq hnu0.le
    have e1 : (fin q / fin nu : F) = fin (q / nu) := fin_div _ _ hnu0.ne'
    have e3 : (F.ofNat d + fin nu : F) = fin (d + nu) := rfl
    have e4 : F.log (fin (1 + q / nu)) = fin (Real.log (1 + q / nu)) := by
      unfold F.log
      simp only []
      rw [if_neg (by linarith), if_neg (by linarith)]
    rw [h, hnu, e1, e3, fin_add, e4, fin_neg, fin_div _ _ two_ne_zero, fin_mul, fin_inj]
    ring
  have hx : metropolisExponent e mu w p = fin (exactExponent e.kernel d b nu jw jp) := by
    unfold metropolisExponent
    rw [ht _ _ hqw h1, ht _ _ hqp h2, hb, hw.logl, hw.logp, hw.logdetj, hw.logdetjFlow, hp.logl, hp.logp, hp.logdetj, hp.logdetjFlow]
    simp only [fin_mul, fin_sub, fin_add]
    unfold exactExponent
    cases e.kernel <;> simp only [Kern.hasFlow, Kern.isPcn, if_true, Bool.false_eq_true, if_false, fin_inj] <;> ring
  have hα : exactAlpha e.kernel d b nu jw jp = min 1 (Real.exp (exactExponent e.kernel d b nu jw jp)) := rfl
  rw [hα]
  unfold alpha
  rw [hx]
  have e5 : F.exp (fin (exactExponent e.kernel d b nu jw jp)) = fin (Real.exp (exactExponent e.kernel d b nu jw jp)) := rfl
  simp only [e5, F.minimum, F.isnan, Bool.false_eq_true, if_false, fin_le]
  by_cases h : 1 ≤ Real.exp (exactExponent e.kernel d b nu jw jp)
  · rw [if_pos h, min_eq_left h]; simp
  · rw [if_neg h, min_eq_right (le_of_not_ge h)]; simp

/-! ### a concrete case -/

noncomputable def demoHere : Judged := ⟨-1, 0, 0, 0, 2⟩
noncomputable def demoThere : Judged := ⟨-2, 0, 0, 0, 4⟩

theorem demo_judged (l q : ℝ) (hl : |l| ≤ 20) (h0 : 0 ≤ q) (hq : q ≤ 4) : Judged.Bounded ⟨l, 0, 0, 0, q⟩ 2 5 20 := by
  refine ⟨hl, by simp, by simp, by simp, h0, ?_⟩
  have h := Real.log_le_sub_one_of_pos (show (0 : ℝ) < 1 + q / 5 by positivity)
  simp only [Nat.cast_ofNat]
  linarith

/-- C131 applies to each of the four kernels on the example, with 53-bit rounding, for a proposal that lowers the log-likelihood from -1 to -2. -/
example (k : Kern) : ∃ a, alphaD demoLog (exampleEnv k (fun _ => fin 0) 0.5) (fin 4) (fin 2)
      { exampleWalker (fun _ => fin 0) 1 with logl := fin (-1) } { exampleWalker (fun _ => fin 0) 2 with logl := fin (-2) } = fin a ∧
    |a - exactAlpha k 2 1 5 demoHere demoThere| ≤ 2⁻¹ ^ 38 := by
  obtain ⟨a, h1, -, -, h2, -⟩ := C131_decision (d := 2) (B := Unit) (M := 20) demo_doubleLog
    (fun x hx => by
      show 1 ≤ round53 (Real.exp x)
      have h1 : round53 1 = 1 := by exact_mod_cast round53_nat 1 (by norm_num)
      rw [← h1]
      exact round53_mono (Real.one_le_exp hx))
    (exampleEnv k (fun _ => fin 0) 0.5) (b := 1) (nu := 5) rfl zero_le_one le_rfl rfl (by norm_num) (by norm_num) (by norm_num)
    (w := { exampleWalker (fun _ => fin 0) 1 with logl := fin (-1) }) (p := { exampleWalker (fun _ => fin 0) 2 with logl := fin (-2) })
    (jw := demoHere) (jp := demoThere) ⟨rfl, rfl, rfl, rfl⟩ ⟨rfl, rfl, rfl, rfl⟩
    (demo_judged _ _ (by norm_num) (by norm_num) (by norm_num)) (demo_judged _ _ (by norm_num) (by norm_num) (by norm_num))
  exact ⟨a, h1, h2.trans (by norm_num)⟩

/-- … and for a proposal outside the support. -/
example (k : Kern) : alphaD demoLog (exampleEnv k (fun _ => fin 0) 0.5) (fin 4) (fin 2)
      { exampleWalker (fun _ => fin 0) 1 with logl := fin (-1) } { exampleWalker (fun _ => fin 0) 2 with logl := ninf } = fin 0 :=
  C131_invalid (d := 2) (B := Unit) demo_doubleLog (exampleEnv k (fun _ => fin 0) 0.5) (b := 1) (nu := 5) rfl one_pos rfl (by norm_num) (by norm_num)
    (jw := demoHere) ⟨rfl, rfl, rfl, rfl⟩ (by norm_num [demoHere]) (qp := 4) (by norm_num) (Or.inl (Or.inr rfl)) (by simp) (by simp [exampleWalker])
    (by simp [exampleWalker]) (by simp [exampleWalker])

end Poco
