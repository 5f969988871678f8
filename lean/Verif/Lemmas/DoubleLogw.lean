import Verif.Spec.DoubleLogw
import Verif.Lemmas.Double
import Verif.Lemmas.Mixture
import Mathlib.Analysis.Complex.ExponentialBounds

/-! Rounding errors of `np.logaddexp` and of its reduction (for C125). -/

namespace Poco
open F Spec

variable {A : ArithLog}

/-- The exact value of `np.logaddexp.reduce`. -/
noncomputable def lseR (l : List ℝ) : ℝ := Real.log (l.map Real.exp).sum

theorem sum_exp_pos {l : List ℝ} (h : l ≠ []) : 0 < (l.map Real.exp).sum := by
  apply List.sum_pos
  · intro x hx
    obtain ⟨y, -, rfl⟩ := List.mem_map.mp hx
    exact Real.exp_pos y
  · simpa using h

theorem lseR_le_shift {l m : List ℝ} {δ : ℝ} (h : List.Forall₂ (fun x y => x ≤ y + δ) l m) (hne : l ≠ []) : lseR l ≤ lseR m + δ := by
  have hm : m ≠ [] := by
    intro hc
    subst hc
    cases h
    exact hne rfl
  have key : (l.map Real.exp).sum ≤ Real.exp δ * (m.map Real.exp).sum := by
    clear hne hm
    induction h with
    | nil => simp
    | @cons x y l m hxy _ ih =>
      simp only [List.map_cons, List.sum_cons, mul_add]
      have : Real.exp x ≤ Real.exp δ * Real.exp y := by
        rw [← Real.exp_add]; exact Real.exp_le_exp.mpr (by linarith)
      linarith
  unfold lseR
  have hp := sum_exp_pos hne
  have hq := sum_exp_pos hm
  calc Real.log (l.map Real.exp).sum ≤ Real.log (Real.exp δ * (m.map Real.exp).sum) := Real.log_le_log hp key
    _ = _ := by rw [Real.log_mul (Real.exp_pos δ).ne' hq.ne', Real.log_exp]; ring

/-- The reduction does not enlarge errors. -/
theorem lseR_shift {l m : List ℝ} {δ : ℝ} (h : List.Forall₂ (fun x y => |x - y| ≤ δ) l m) (hne : l ≠ []) : |lseR l - lseR m| ≤ δ := by
  have hm : m ≠ [] := by
    intro hc
    subst hc
    cases h
    exact hne rfl
  have h1 := lseR_le_shift (h.imp fun x y hxy => by linarith [(abs_le.mp hxy).2]) hne
  have h2 := lseR_le_shift (δ := δ) (h.flip.imp fun y x (hxy : |x - y| ≤ δ) => by linarith [(abs_le.mp hxy).1]) hm
  rw [abs_le]; constructor <;> linarith

theorem lseR_append (l : List ℝ) (hne : l ≠ []) (x : ℝ) : lseR (l ++ [x]) = lseR [lseR l, x] := by
  unfold lseR
  simp only [List.map_append, List.sum_append, List.map_cons, List.map_nil, List.sum_cons, List.sum_nil, add_zero]
  rw [Real.exp_log (sum_exp_pos hne)]

theorem lseR_pair (x y : ℝ) : lseR [x, y] = Real.log (Real.exp x + Real.exp y) := by
  simp [lseR]

/-- The reduction lies between the numbers, up to the logarithm of their number. -/
theorem lseR_range {l : List ℝ} (hne : l ≠ []) {K : ℝ} (h : ∀ x ∈ l, |x| ≤ K) : -K ≤ lseR l - Real.log l.length ∧ lseR l - Real.log l.length ≤ K := by
  have hn : (0 : ℝ) < l.length := by exact_mod_cast List.length_pos_iff.mpr hne
  have hlo : l.length * Real.exp (-K) ≤ (l.map Real.exp).sum := by
    have := List.card_nsmul_le_sum (l.map Real.exp) (Real.exp (-K)) fun x hx => by
      obtain ⟨y, hy, rfl⟩ := List.mem_map.mp hx
      exact Real.exp_le_exp.mpr (abs_le.mp (h y hy)).1
    simpa using this
  have hhi : (l.map Real.exp).sum ≤ l.length * Real.exp K := by
    have := List.sum_le_card_nsmul (l.map Real.exp) (Real.exp K) fun x hx => by
      obtain ⟨y, hy, rfl⟩ := List.mem_map.mp hx
      exact Real.exp_le_exp.mpr (abs_le.mp (h y hy)).2
    simpa using this
  have h1 := Real.log_le_log (by positivity) hlo
  have h2 := Real.log_le_log (sum_exp_pos hne) hhi
  rw [Real.log_mul hn.ne' (Real.exp_pos _).ne', Real.log_exp] at h1 h2
  unfold lseR
  constructor <;> linarith

theorem lseR_abs {l : List ℝ} (hne : l ≠ []) {K : ℝ} (h : ∀ x ∈ l, |x| ≤ K) : |lseR l| ≤ K + Real.log l.length := by
  have h1 := lseR_range hne h
  have hn : (1 : ℝ) ≤ l.length := by exact_mod_cast List.length_pos_iff.mpr hne
  have h0 := Real.log_nonneg hn
  rw [abs_le]; constructor <;> linarith

theorem log_one_add_lip {a b : ℝ} (ha : 0 ≤ a) (hb : 0 ≤ b) : |Real.log (1 + a) - Real.log (1 + b)| ≤ |a - b| := by
  wlog hab : b ≤ a with H
  · rw [abs_sub_comm, abs_sub_comm a]; exact H hb ha (le_of_not_ge hab)
  have h1 : Real.log (1 + b) ≤ Real.log (1 + a) := Real.log_le_log (by linarith) (by linarith)
  rw [abs_of_nonneg (by linarith), abs_of_nonneg (by linarith)]
  rw [← Real.log_div (by linarith) (by linarith)]
  have h2 : (1 + a) / (1 + b) = 1 + (a - b) / (1 + b) := by field_simp; ring
  have h3 : (a - b) / (1 + b) ≤ a - b := div_le_self (by linarith) (by linarith)
  have h4 := Real.log_le_sub_one_of_pos (show 0 < (1 + a) / (1 + b) from div_pos (by linarith) (by linarith))
  linarith

theorem soft_lip (s t : ℝ) : |Real.log (1 + Real.exp s) - Real.log (1 + Real.exp t)| ≤ |s - t| := by
  have := lseR_shift (l := [0, s]) (m := [0, t]) (δ := |s - t|) (by
    refine List.Forall₂.cons ?_ (List.Forall₂.cons le_rfl List.Forall₂.nil)
    simp) (by simp)
  simpa [lseR_pair] using this

/-- The computed `log1p(exp(s))` for a double `s ≤ 0`. -/
theorem soft_close (hA : IsDoubleLog A) {s : ℝ} (hs : s ≤ 0) :
    |A.log1p (A.exp s) - Real.log (1 + Real.exp s)| ≤ 5 * uu ∧ 0 ≤ A.log1p (A.exp s) + 5 * uu ∧ A.log1p (A.exp s) ≤ 1 := by
  have hu := uu_pos
  have hd := hA.double
  obtain ⟨e0, e1⟩ := hd.exp_range s hs
  have h1 := hd.exp_near s hs
  have h2 := hA.log1p_near _ e0 e1
  have hexp : Real.exp s ≤ 1 := Real.exp_le_one_iff.mpr hs
  have hexp0 := (Real.exp_pos s).le
  have h3 := log_one_add_lip e0 hexp0
  have hl1 : Real.log (1 + A.exp s) ≤ A.exp s := by
    have := Real.log_le_sub_one_of_pos (show 0 < 1 + A.exp s by linarith)
    linarith
  have hl2 : Real.log (1 + A.exp s) ≤ 0.694 := by
    have : Real.log (1 + A.exp s) ≤ Real.log 2 := Real.log_le_log (by linarith) (by linarith)
    linarith [Real.log_two_lt_d9]
  have hl0 : 0 ≤ Real.log (1 + A.exp s) := Real.log_nonneg (by linarith)
  have t1 : (2⁻¹ : ℝ) ^ 1074 ≤ uu / 4 := by
    have : uu / 4 = 2⁻¹ ^ 55 := by unfold uu; norm_num
    rw [this]
    exact pow_le_pow_of_le_one (by norm_num) (by norm_num) (by norm_num)
  have hu2 : (2⁻¹ : ℝ) ^ 52 = 2 * uu := by unfold uu; norm_num
  rw [hu2] at h1 h2
  generalize (2⁻¹ : ℝ) ^ 1074 = t at *
  have h4 : 2 * uu * Real.exp s ≤ 2 * uu * 1 := mul_le_mul_of_nonneg_left hexp (by linarith)
  have h5 : 2 * uu * Real.log (1 + A.exp s) ≤ 2 * uu * 1 := mul_le_mul_of_nonneg_left (by linarith) (by linarith)
  have hus : uu ≤ 1 / 1000 := by unfold uu; norm_num
  have hmain : |A.log1p (A.exp s) - Real.log (1 + Real.exp s)| ≤ 5 * uu := by
    calc |A.log1p (A.exp s) - Real.log (1 + Real.exp s)|
        = |(A.log1p (A.exp s) - Real.log (1 + A.exp s)) + (Real.log (1 + A.exp s) - Real.log (1 + Real.exp s))| := by ring_nf
      _ ≤ |A.log1p (A.exp s) - Real.log (1 + A.exp s)| + |Real.log (1 + A.exp s) - Real.log (1 + Real.exp s)| := abs_add_le _ _
      _ ≤ 5 * uu := by linarith
  have h6 := abs_le.mp hmain
  have h7 : 0 ≤ Real.log (1 + Real.exp s) := Real.log_nonneg (by linarith)
  refine ⟨hmain, by linarith, ?_⟩
  linarith [(abs_le.mp h2).2]

/-- One step of `np.logaddexp` on finite numbers. -/
theorem logaddexpD_close (hA : IsDoubleLog A) {x y K : ℝ} (hK : 16 ≤ K) (hx : |x| ≤ K) (hy : |y| ≤ K) :
    ∃ r, A.logaddexp (fin x) (fin y) = fin r ∧ |r - lseR [x, y]| ≤ 4 * uu * K := by
  have hu := uu_pos
  have hd := hA.double
  have heta : eta ≤ uu := by unfold eta uu; exact pow_le_pow_of_le_one (by norm_num) (by norm_num) (by norm_num)
  have huK : uu * 16 ≤ uu * K := mul_le_mul_of_nonneg_left hK hu.le
  have hus : uu ≤ 1 / 1000 := by unfold uu; norm_num
  unfold ArithLog.logaddexp
  rw [lseR_pair]
  -- rounding of a base plus a small number
  have hround : ∀ b s : ℝ, |b| ≤ K → |s| ≤ 1 → |A.rnd (b + s) - (b + s)| ≤ uu * K + 2 * uu := by
    intro b s hb hs
    have h1 := hd.err (b + s)
    have h2 : uu * |b + s| ≤ uu * (K + 1) := mul_le_mul_of_nonneg_left ((abs_add_le b s).trans (by linarith)) hu.le
    linarith
  by_cases hxy : x = y
  · rw [if_pos (by simpa using hxy)]
    refine ⟨A.rnd (x + A.ln2), rfl, ?_⟩
    have h1 := hA.ln2_near
    have hu53 : (2⁻¹ : ℝ) ^ 53 = uu := by unfold uu; rfl
    rw [hu53] at h1
    have hl2 : |A.ln2| ≤ 1 := by
      have := abs_le.mp h1
      have h2 := Real.log_two_lt_d9
      have h3 := Real.log_two_gt_d9
      rw [abs_le]; constructor <;> linarith
    have h2 := hround x A.ln2 hx hl2
    have e : Real.log (Real.exp x + Real.exp y) = x + Real.log 2 := by
      rw [← hxy, ← two_mul, Real.log_mul two_ne_zero (Real.exp_pos x).ne', Real.log_exp]; ring
    rw [e]
    calc |A.rnd (x + A.ln2) - (x + Real.log 2)| = |(A.rnd (x + A.ln2) - (x + A.ln2)) + (A.ln2 - Real.log 2)| := by ring_nf
      _ ≤ |A.rnd (x + A.ln2) - (x + A.ln2)| + |A.ln2 - Real.log 2| := abs_add_le _ _
      _ ≤ 4 * uu * K := by linarith
  · rw [if_neg (by simpa using hxy)]
    set t := A.rnd (x - y) with ht
    have htmp : A.round (fin x - fin y) = fin t := by rw [fin_sub]; rfl
    have hte : |t - (x - y)| ≤ 2 * uu * K + uu := by
      have h1 := hd.err (x - y)
      have h2 : |x - y| ≤ 2 * K := by
        have := abs_le.mp hx
        have := abs_le.mp hy
        rw [abs_le]; constructor <;> linarith
      have h3 : uu * |x - y| ≤ uu * (2 * K) := mul_le_mul_of_nonneg_left h2 hu.le
      linarith
    have hfin : ∀ b s e : ℝ, |b| ≤ K → s ≤ 0 → |s - e| ≤ 2 * uu * K + uu → 
        |A.rnd (b + A.log1p (A.exp s)) - (b + Real.log (1 + Real.exp e))| ≤ 4 * uu * K := by
      intro b s e hb hs hse
      obtain ⟨h1, h2, h3⟩ := soft_close hA hs
      have h4 := (soft_lip s e).trans hse
      have h5 := hround b (A.log1p (A.exp s)) hb (abs_le.mpr ⟨by linarith, h3⟩)
      calc |A.rnd (b + A.log1p (A.exp s)) - (b + Real.log (1 + Real.exp e))|
          = |(A.rnd (b + A.log1p (A.exp s)) - (b + A.log1p (A.exp s))) + ((A.log1p (A.exp s) - Real.log (1 + Real.exp s)) +
              (Real.log (1 + Real.exp s) - Real.log (1 + Real.exp e)))| := by ring_nf
        _ ≤ |A.rnd (b + A.log1p (A.exp s)) - (b + A.log1p (A.exp s))| + |(A.log1p (A.exp s) - Real.log (1 + Real.exp s)) +
              (Real.log (1 + Real.exp s) - Real.log (1 + Real.exp e))| := abs_add_le _ _
        _ ≤ |A.rnd (b + A.log1p (A.exp s)) - (b + A.log1p (A.exp s))| + (|A.log1p (A.exp s) - Real.log (1 + Real.exp s)| +
              |Real.log (1 + Real.exp s) - Real.log (1 + Real.exp e)|) := by gcongr; exact abs_add_le _ _
        _ ≤ 4 * uu * K := by linarith
    simp only [htmp]
    by_cases h0 : 0 < t
    · rw [if_pos (show fin t > 0 from h0)]
      refine ⟨A.rnd (x + A.log1p (A.exp (-t))), rfl, ?_⟩
      have e : Real.log (Real.exp x + Real.exp y) = x + Real.log (1 + Real.exp (y - x)) := by
        have : Real.exp x + Real.exp y = Real.exp x * (1 + Real.exp (y - x)) := by
          rw [mul_add, mul_one, ← Real.exp_add]; ring_nf
        rw [this, Real.log_mul (Real.exp_pos x).ne' (by positivity), Real.log_exp]
      rw [e]
      refine hfin x (-t) (y - x) hx (by linarith) ?_
      rw [show -t - (y - x) = -(t - (x - y)) by ring, abs_neg]
      exact hte
    · rw [if_neg (show ¬ fin t > 0 from h0), if_pos (show fin t ≤ 0 from not_lt.mp h0)]
      refine ⟨A.rnd (y + A.log1p (A.exp t)), rfl, ?_⟩
      have e : Real.log (Real.exp x + Real.exp y) = y + Real.log (1 + Real.exp (x - y)) := by
        have : Real.exp x + Real.exp y = Real.exp y * (1 + Real.exp (x - y)) := by
          rw [mul_add, mul_one, ← Real.exp_add]; ring_nf
        rw [this, Real.log_mul (Real.exp_pos y).ne' (by positivity), Real.log_exp]
      rw [e]
      exact hfin y t (x - y) hy (not_lt.mp h0) hte

theorem logaddexpD_first (hA : IsDoubleLog A) (x : ℝ) : A.logaddexp ninf (fin x) = fin (A.rnd x) := by
  unfold ArithLog.logaddexp
  have h0 : A.exp = A.exp := rfl
  rw [if_neg (by simp [feq])]
  have htmp : A.round (ninf - fin x) = ninf := rfl
  simp only [htmp]
  rw [if_neg (show ¬ (ninf : F) > 0 from id), if_pos (show (ninf : F) ≤ 0 from trivial)]
  show fin (A.rnd (x + A.log1p 0)) = _
  rw [hA.log1p_zero, add_zero]

/-- `np.logaddexp.reduce` on finite numbers. -/
theorem lseD_close (hA : IsDoubleLog A) {K₀ K : ℝ} (hK : 16 ≤ K) (l : List ℝ) (hne : l ≠ []) (hl : ∀ x ∈ l, |x| ≤ K₀)
    (hb : K₀ + Real.log l.length + l.length * (4 * uu * K) ≤ K) :
    ∃ r, A.lse (l.map fin) = fin r ∧ |r - lseR l| ≤ l.length * (4 * uu * K) := by
  have hu := uu_pos
  have hd := hA.double
  have hK0 : 0 ≤ K₀ := by
    obtain ⟨x, hx⟩ := List.exists_mem_of_ne_nil l hne
    exact (abs_nonneg x).trans (hl x hx)
  have heta : eta ≤ uu := by unfold eta uu; exact pow_le_pow_of_le_one (by norm_num) (by norm_num) (by norm_num)
  have huK : uu * 16 ≤ uu * K := mul_le_mul_of_nonneg_left hK hu.le
  have key : ∀ p : List ℝ, p ≠ [] → (∀ x ∈ p, |x| ≤ K₀) → p.length ≤ l.length →
      ∃ r, A.lse (p.map fin) = fin r ∧ |r - lseR p| ≤ p.length * (4 * uu * K) := by
    intro p
    induction p using List.reverseRecOn with
    | nil => intro h; exact absurd rfl h
    | append_singleton p x ih =>
      intro _ hp hlen
      have hx : |x| ≤ K₀ := hp x (by simp)
      have hK0K : K₀ ≤ K := by
        have h1 : (1 : ℝ) ≤ l.length := by exact_mod_cast List.length_pos_iff.mpr hne
        have := Real.log_nonneg h1
        have : (0 : ℝ) ≤ l.length * (4 * uu * K) := by positivity
        linarith
      rcases eq_or_ne p [] with rfl | hpn
      · refine ⟨A.rnd x, ?_, ?_⟩
        · show A.logaddexp ninf (fin x) = _
          exact logaddexpD_first hA x
        · have h1 := hd.err x
          have h2 : uu * |x| ≤ uu * K := mul_le_mul_of_nonneg_left (hx.trans hK0K) hu.le
          have h3 : lseR ([] ++ [x]) = x := by simp [lseR]
          rw [h3]
          simp only [List.nil_append, List.length_singleton, Nat.cast_one, one_mul]
          linarith
      · rw [List.length_append, List.length_singleton] at hlen
        obtain ⟨r, hr1, hr2⟩ := ih hpn (fun y hy => hp y (by simp [hy])) (by omega)
        have hpl : (p.length : ℝ) + 1 ≤ l.length := by exact_mod_cast hlen
        have hpl1 : (1 : ℝ) ≤ p.length := by exact_mod_cast List.length_pos_iff.mpr hpn
        have hlog : Real.log p.length ≤ Real.log l.length := Real.log_le_log (by linarith) (by linarith)
        have habs := lseR_abs hpn (K := K₀) fun y hy => hp y (by simp [hy])
        have hmul : (p.length : ℝ) * (4 * uu * K) ≤ l.length * (4 * uu * K) := mul_le_mul_of_nonneg_right (by linarith) (by positivity)
        have hrK : |r| ≤ K := by
          calc |r| = |(r - lseR p) + lseR p| := by ring_nf
            _ ≤ |r - lseR p| + |lseR p| := abs_add_le _ _
            _ ≤ K := by linarith
        obtain ⟨q, hq1, hq2⟩ := logaddexpD_close hA hK hrK (hx.trans hK0K)
        refine ⟨q, ?_, ?_⟩
        · unfold ArithLog.lse at hr1 ⊢
          rw [List.map_append, List.foldl_append, hr1]
          exact hq1
        · have h1 : |lseR [r, x] - lseR [lseR p, x]| ≤ p.length * (4 * uu * K) := by
            apply lseR_shift _ (by simp)
            refine List.Forall₂.cons hr2 (List.Forall₂.cons ?_ List.Forall₂.nil)
            rw [sub_self, abs_zero]; positivity
          rw [lseR_append p hpn, List.length_append, List.length_singleton]
          push_cast
          calc |q - lseR [lseR p, x]| = |(q - lseR [r, x]) + (lseR [r, x] - lseR [lseR p, x])| := by ring_nf
            _ ≤ |q - lseR [r, x]| + |lseR [r, x] - lseR [lseR p, x]| := abs_add_le _ _
            _ ≤ (p.length + 1) * (4 * uu * K) := by linarith
  exact key l hne hl le_rfl

end Poco
