import Verif.Spec.DoubleEvidence
import Verif.Props.DoubleTools
import Verif.Props.ErrorBar
import Mathlib.Data.List.ReduceOption

/-! Rounding errors of the evidence from flow draws and of `np.std` (for C154). -/

namespace Poco
open F Spec

/-! ### `-inf` entries in `np.logaddexp.reduce` -/

section lse
variable {A : ArithLog}

theorem logaddexpD_ninf_fin (hA : IsDoubleLog A) {r : ℝ} (hr : A.rnd r = r) : A.logaddexp (fin r) ninf = fin r := by
  unfold ArithLog.logaddexp
  rw [if_neg (by simp [feq])]
  have htmp : A.round (fin r - ninf) = pinf := rfl
  simp only [htmp]
  rw [if_pos (show (pinf : F) > 0 from trivial)]
  show fin (A.rnd (r + A.log1p 0)) = _
  rw [hA.log1p_zero, add_zero, hr]

theorem logaddexpD_ninf_ninf : A.logaddexp ninf ninf = ninf := by
  unfold ArithLog.logaddexp
  rw [if_pos (by simp [feq])]
  rfl

theorem logaddexpD_double (hA : IsDoubleLog A) (x y : ℝ) : ∃ r, A.logaddexp (fin x) (fin y) = fin r ∧ A.rnd r = r := by
  have hd := hA.double
  unfold ArithLog.logaddexp
  by_cases hxy : x = y
  · rw [if_pos (by simpa using hxy)]
    exact ⟨_, rfl, hd.idem _⟩
  · rw [if_neg (by simpa using hxy)]
    have htmp : A.round (fin x - fin y) = fin (A.rnd (x - y)) := by rw [fin_sub]; rfl
    simp only [htmp]
    by_cases h0 : 0 < A.rnd (x - y)
    · rw [if_pos (show fin _ > 0 from h0)]
      exact ⟨_, rfl, hd.idem _⟩
    · rw [if_neg (show ¬ fin _ > 0 from h0), if_pos (show fin _ ≤ 0 from not_lt.mp h0)]
      exact ⟨_, rfl, hd.idem _⟩

/-- `-inf` entries do not change `np.logaddexp.reduce`, not even its rounding. -/
theorem lseD_skip (hA : IsDoubleLog A) (l : List (Option ℝ)) :
    A.lse (l.map fun o => o.elim ninf fin) = A.lse ((l.reduceOption).map fin) := by
  unfold ArithLog.lse
  have key : ∀ (l : List (Option ℝ)) (a : F), (a = ninf ∨ ∃ r, a = fin r ∧ A.rnd r = r) →
      (l.map fun o => o.elim ninf fin).foldl A.logaddexp a = ((l.reduceOption).map fin).foldl A.logaddexp a := by
    intro l
    induction l with
    | nil => intro a _; rfl
    | cons o l ih =>
      intro a ha
      cases o with
      | none =>
        rw [List.reduceOption_cons_of_none, List.map_cons, List.foldl_cons]
        have : A.logaddexp a ninf = a := by
          rcases ha with rfl | ⟨r, rfl, hr⟩
          · exact logaddexpD_ninf_ninf
          · exact logaddexpD_ninf_fin hA hr
        show (l.map fun o => o.elim ninf fin).foldl A.logaddexp (A.logaddexp a ninf) = _
        rw [this]
        exact ih a ha
      | some x =>
        rw [List.reduceOption_cons_of_some, List.map_cons, List.map_cons, List.foldl_cons, List.foldl_cons]
        refine ih _ (.inr ?_)
        rcases ha with rfl | ⟨r, rfl, -⟩
        · exact ⟨_, logaddexpD_first hA x, hA.double.idem x⟩
        · exact logaddexpD_double hA r x
  exact key l ninf (.inl rfl)

/-- A computed log-weight `c` and the weight `w` it stands for. -/
def NearLog (δ K : ℝ) (c : F) (w : ℝ) : Prop :=
  (c = ninf ∧ w = 0) ∨ ∃ x y, c = fin x ∧ w = Real.exp y ∧ |x - y| ≤ δ ∧ |x| ≤ K

theorem NearLog.nonneg {δ K : ℝ} {c : F} {w : ℝ} (h : NearLog δ K c w) : 0 ≤ w := by
  rcases h with ⟨-, rfl⟩ | ⟨x, y, -, rfl, -⟩
  · exact le_rfl
  · exact (Real.exp_pos y).le

theorem NearLog.split {δ K : ℝ} {cs : List F} {ws : List ℝ} (h : List.Forall₂ (NearLog δ K) cs ws) :
    ∃ (o : List (Option ℝ)) (ys : List ℝ), cs = o.map (fun o => o.elim ninf fin) ∧ ws.sum = (ys.map Real.exp).sum ∧
      o.length = ws.length ∧ List.Forall₂ (fun x y => |x - y| ≤ δ) o.reduceOption ys ∧ ∀ x ∈ o.reduceOption, |x| ≤ K := by
  induction h with
  | nil => exact ⟨[], [], rfl, rfl, rfl, List.Forall₂.nil, by simp⟩
  | cons hcw _ ih =>
    obtain ⟨o, ys, h1, h2, h3, h4, h5⟩ := ih
    rcases hcw with ⟨rfl, rfl⟩ | ⟨x, y, rfl, rfl, hxy, hx⟩
    · refine ⟨none :: o, ys, by simp [h1], by simp [h2], by simp [h3], ?_, ?_⟩
      · rw [List.reduceOption_cons_of_none]; exact h4
      · rw [List.reduceOption_cons_of_none]; exact h5
    · refine ⟨some x :: o, y :: ys, by simp [h1], by simp [h2], by simp [h3], ?_, ?_⟩
      · rw [List.reduceOption_cons_of_some]; exact List.Forall₂.cons hxy h4
      · rw [List.reduceOption_cons_of_some]
        intro z hz
        rcases List.mem_cons.mp hz with rfl | hz
        · exact hx
        · exact h5 z hz

/-- `np.logaddexp.reduce(logw) - np.log(len(logw))` for computed log-weights. -/
theorem logmean_close (hA : IsDoubleLog A) {δ K₀ : ℝ} (hδ : 0 ≤ δ) (hK₀ : 0 ≤ K₀) {cs : List F} {ws : List ℝ} (h : List.Forall₂ (NearLog δ K₀) cs ws)
    (hpos : 0 < ws.sum) (hf : ws.length ≤ 2 ^ 40) :
    ∃ r, A.round (A.lse cs - A.logF (ofNat cs.length)) = fin r ∧
      |r - Real.log (ws.sum / ws.length)| ≤ δ + ws.length * (uu * (10 * K₀ + 377)) := by
  have hd := hA.double
  have hu := uu_pos
  have he := eta_le_unit
  have hus : uu ≤ 1 / 1000 := by unfold uu; norm_num
  have hlen : cs.length = ws.length := h.length_eq
  obtain ⟨o, ys, h1, h2, h3, h4, h5⟩ := NearLog.split h
  set xs := o.reduceOption with hxs
  have hxn : xs ≠ [] := by
    intro hc
    rw [hc] at h4
    cases h4
    rw [h2] at hpos
    simp at hpos
  have hxl : xs.length ≤ ws.length := by rw [← h3]; exact List.reduceOption_length_le o
  have hn1 : (1 : ℝ) ≤ xs.length := by exact_mod_cast List.length_pos_iff.mpr hxn
  have hxl' : (xs.length : ℝ) ≤ ws.length := by exact_mod_cast hxl
  have hf' : (ws.length : ℝ) ≤ 2 ^ 40 := by exact_mod_cast hf
  set n : ℝ := (ws.length : ℝ) with hn
  have hlog : Real.log n ≤ 28 := by
    have h1 : Real.log n ≤ Real.log (2 ^ 40) := Real.log_le_log (by linarith) hf'
    rw [Real.log_pow] at h1
    have := Real.log_two_lt_d9
    norm_num at h1
    linarith
  have hlog0 : 0 ≤ Real.log n := Real.log_nonneg (by linarith)
  have hlogx : Real.log xs.length ≤ 28 := (Real.log_le_log (by linarith) hxl').trans hlog
  set K := 2 * K₀ + 64 with hK
  have hnu : n * (4 * uu * K) ≤ K / 100 := by
    have h1 : n * uu ≤ 2 ^ 40 * uu := mul_le_mul_of_nonneg_right hf' hu.le
    have h2 : (2 : ℝ) ^ 40 * uu ≤ 1 / 400 := by unfold uu; norm_num
    have h3 : n * uu * (4 * K) ≤ 1 / 400 * (4 * K) := mul_le_mul_of_nonneg_right (h1.trans h2) (by positivity)
    linarith
  have hxu : (xs.length : ℝ) * (4 * uu * K) ≤ n * (4 * uu * K) := mul_le_mul_of_nonneg_right hxl' (by positivity)
  obtain ⟨q, hq1, hq2⟩ := lseD_close hA (K₀ := K₀) (K := K) (by linarith) xs hxn h5 (by linarith)
  have hq3 := lseR_abs hxn h5
  have hq4 := lseR_shift h4 hxn
  have hlg := hA.log_near n (by linarith)
  have h52 : (2⁻¹ : ℝ) ^ 52 = 2 * uu := by unfold uu; norm_num
  rw [h52] at hlg
  have hlg' : |A.log n - Real.log n| ≤ 56 * uu := hlg.trans (by nlinarith)
  have hnn : (0 : ℝ) < n := by linarith
  have hlogF : A.logF (ofNat cs.length) = fin (A.log n) := by
    rw [hlen]
    show (if n < 0 then nan else if n = 0 then ninf else fin (A.log n)) = _
    rw [if_neg hnn.not_gt, if_neg hnn.ne']
  refine ⟨A.rnd (q - A.log n), ?_, ?_⟩
  · rw [hlogF, h1, lseD_skip hA, ← hxs, hq1, fin_sub]; rfl
  · have hexact : Real.log (ws.sum / n) = lseR ys - Real.log n := by
      rw [Real.log_div hpos.ne' hnn.ne', h2]; rfl
    rw [hexact]
    have hqb : |q| ≤ K₀ + 28 + K / 100 := by
      calc |q| = |(q - lseR xs) + lseR xs| := by ring_nf
        _ ≤ _ := abs_add_le _ _
        _ ≤ _ := by linarith
    have hlb : |A.log n| ≤ 29 := by
      calc |A.log n| = |(A.log n - Real.log n) + Real.log n| := by ring_nf
        _ ≤ _ := abs_add_le _ _
        _ ≤ _ := by rw [abs_of_nonneg hlog0]; linarith
    have hr := hd.err (q - A.log n)
    have hqa : |q - A.log n| ≤ K := (abs_sub _ _).trans (by rw [hK] at hqb ⊢; linarith)
    have hr' : |A.rnd (q - A.log n) - (q - A.log n)| ≤ uu * K + uu := by
      have := mul_le_mul_of_nonneg_left hqa hu.le
      linarith
    calc |A.rnd (q - A.log n) - (lseR ys - Real.log n)|
        = |(A.rnd (q - A.log n) - (q - A.log n)) + ((q - lseR xs) + (lseR xs - lseR ys)) - (A.log n - Real.log n)| := by ring_nf
      _ ≤ |A.rnd (q - A.log n) - (q - A.log n)| + (|q - lseR xs| + |lseR xs - lseR ys|) + |A.log n - Real.log n| :=
        (abs_sub _ _).trans (by gcongr; exact (abs_add_le _ _).trans (by gcongr; exact abs_add_le _ _))
      _ ≤ (uu * K + uu) + (n * (4 * uu * K) + δ) + 56 * uu := by linarith
      _ = δ + n * (4 * uu * K) + (uu * K + 57 * uu) := by ring
      _ ≤ δ + n * (4 * uu * K) + n * (uu * K + 57 * uu) := by
        have : 1 * (uu * K + 57 * uu) ≤ n * (uu * K + 57 * uu) := mul_le_mul_of_nonneg_right (by linarith) (by positivity)
        linarith
      _ = _ := by rw [hK]; ring

end lse

/-! ### `np.std` -/

/-- The rounding error of a sum, whatever the signs and the order. -/
theorem Spec.Added.err_abs {r : ℝ → ℝ} (hr : ∀ x, |r x - x| ≤ uu * |x| + eta) {l : List ℝ} {s : ℝ} (h : Added r l s) :
    l ≠ [] → 2 * (l.length : ℝ) * uu ≤ 1 → |s - l.sum| ≤ ((l.length : ℝ) - 1) * (2 * uu * (l.map (|·|)).sum + 2 * eta) := by
  have hu := uu_pos
  have he := eta_pos
  have hnn : ∀ l : List ℝ, 0 ≤ (l.map (|·|)).sum := fun l => List.sum_nonneg fun x hx => by
    obtain ⟨y, -, rfl⟩ := List.mem_map.mp hx
    exact abs_nonneg y
  have habs : ∀ l : List ℝ, |l.sum| ≤ (l.map (|·|)).sum := by
    intro l
    induction l with
    | nil => simp
    | cons a l ih =>
      simp only [List.sum_cons, List.map_cons]
      exact (abs_add_le _ _).trans (by linarith)
  induction h with
  | nil => intro h; exact absurd rfl h
  | one x => intro _ _; simp
  | @add l l₁ l₂ a b h1 h2 ha hb hp iha ihb =>
    intro _ hN
    have hlen : (l.length : ℝ) = l₁.length + l₂.length := by rw [hp.length_eq, List.length_append]; push_cast; ring
    have hsum : l.sum = l₁.sum + l₂.sum := by rw [hp.sum_eq, List.sum_append]
    have hsuma : (l.map (|·|)).sum = (l₁.map (|·|)).sum + (l₂.map (|·|)).sum := by
      rw [(hp.map _).sum_eq, List.map_append, List.sum_append]
    have c1 : (1 : ℝ) ≤ l₁.length := by exact_mod_cast List.length_pos_iff.mpr h1
    have c2 : (1 : ℝ) ≤ l₂.length := by exact_mod_cast List.length_pos_iff.mpr h2
    have s1 := hnn l₁
    have s2 := hnn l₂
    have e1 := iha h1 (by nlinarith)
    have e2 := ihb h2 (by nlinarith)
    have er := hr (a + b)
    set n₁ : ℝ := (l₁.length : ℝ)
    set n₂ : ℝ := (l₂.length : ℝ)
    set p := 2 * uu * (l.map (|·|)).sum + 2 * eta with hpd
    have p1 : 2 * uu * (l₁.map (|·|)).sum + 2 * eta ≤ p := by rw [hpd, hsuma]; nlinarith
    have p2 : 2 * uu * (l₂.map (|·|)).sum + 2 * eta ≤ p := by rw [hpd, hsuma]; nlinarith
    have q1 : |a - l₁.sum| ≤ (n₁ - 1) * p := e1.trans (mul_le_mul_of_nonneg_left p1 (by linarith))
    have q2 : |b - l₂.sum| ≤ (n₂ - 1) * p := e2.trans (mul_le_mul_of_nonneg_left p2 (by linarith))
    have hab : |(a + b) - l.sum| ≤ (n₁ + n₂ - 2) * p := by
      rw [hsum]
      calc |a + b - (l₁.sum + l₂.sum)| = |(a - l₁.sum) + (b - l₂.sum)| := by ring_nf
        _ ≤ |a - l₁.sum| + |b - l₂.sum| := abs_add_le _ _
        _ ≤ _ := by linarith
    have hab' : |a + b| ≤ (l.map (|·|)).sum + (n₁ + n₂ - 2) * p := by
      calc |a + b| = |(a + b - l.sum) + l.sum| := by ring_nf
        _ ≤ |a + b - l.sum| + |l.sum| := abs_add_le _ _
        _ ≤ _ := by linarith [habs l]
    have hsn := hnn l
    have hp0 : 0 ≤ p := by rw [hpd]; positivity
    have key : uu * |a + b| + eta ≤ p := by
      have h3 : uu * |a + b| ≤ uu * (l.map (|·|)).sum + uu * (n₁ + n₂ - 2) * p := by
        calc uu * |a + b| ≤ uu * ((l.map (|·|)).sum + (n₁ + n₂ - 2) * p) := mul_le_mul_of_nonneg_left hab' hu.le
          _ = _ := by ring
      have h4 : uu * (n₁ + n₂ - 2) ≤ 1 / 2 := by rw [hlen] at hN; nlinarith
      have h5 : uu * (n₁ + n₂ - 2) * p ≤ 1 / 2 * p := mul_le_mul_of_nonneg_right h4 hp0
      have h6 : uu * (l.map (|·|)).sum + eta = p / 2 := by rw [hpd]; ring
      linarith
    calc |r (a + b) - l.sum| = |(r (a + b) - (a + b)) + ((a + b) - l.sum)| := by ring_nf
      _ ≤ |r (a + b) - (a + b)| + |(a + b) - l.sum| := abs_add_le _ _
      _ ≤ p + (n₁ + n₂ - 2) * p := by linarith
      _ = ((l.length : ℝ) - 1) * p := by rw [hlen]; ring

/-- The root mean square. -/
noncomputable def rms (l : List ℝ) : ℝ := Real.sqrt ((l.map (· ^ 2)).sum / l.length)

theorem rms_nonneg (l : List ℝ) : 0 ≤ rms l := Real.sqrt_nonneg _

theorem rms_shift_le {l m : List ℝ} {δ : ℝ} (hδ : 0 ≤ δ) (h : List.Forall₂ (fun x y => |x - y| ≤ δ) l m) : rms l ≤ rms m + δ := by
  rcases eq_or_ne m [] with rfl | hm
  · cases h
    simp [rms, hδ]
  have hlen := h.length_eq
  have hN : (0 : ℝ) < m.length := by exact_mod_cast List.length_pos_iff.mpr hm
  have h1 : (l.map (· ^ 2)).sum ≤ (m.map (· ^ 2)).sum + 2 * δ * (m.map (|·|)).sum + m.length * δ ^ 2 := by
    clear hm hlen hN
    induction h with
    | nil => simp
    | @cons x y l m hxy _ ih =>
      simp only [List.map_cons, List.sum_cons, List.length_cons, Nat.cast_add, Nat.cast_one]
      have h1 : |x| ≤ |y| + δ := by
        calc |x| = |(x - y) + y| := by ring_nf
          _ ≤ |x - y| + |y| := abs_add_le _ _
          _ ≤ _ := by linarith
      have h2 : x ^ 2 ≤ (|y| + δ) ^ 2 := by rw [← sq_abs x]; exact pow_le_pow_left₀ (abs_nonneg x) h1 2
      have h3 : (|y| + δ) ^ 2 = y ^ 2 + 2 * δ * |y| + δ ^ 2 := by rw [add_sq, sq_abs]; ring
      linarith
  have h2 := list_sq_sum_le (m.map (|·|))
  rw [List.length_map, List.map_map] at h2
  have h3 : (m.map ((· ^ 2) ∘ (|·|))).sum = (m.map (· ^ 2)).sum := by
    congr 1
    apply List.map_congr_left
    intro x _
    exact sq_abs x
  rw [h3] at h2
  set N : ℝ := (m.length : ℝ) with hNd
  set S := (m.map (· ^ 2)).sum
  set T := (m.map (|·|)).sum
  have hS : 0 ≤ S := List.sum_nonneg fun x hx => by
    obtain ⟨y, -, rfl⟩ := List.mem_map.mp hx
    positivity
  have hsq : Real.sqrt (S / N) ^ 2 = S / N := Real.sq_sqrt (by positivity)
  have h4 : T / N ≤ Real.sqrt (S / N) := by
    apply Real.le_sqrt_of_sq_le
    rw [div_pow, div_le_div_iff₀ (by positivity) hN]
    nlinarith
  unfold rms
  rw [hlen, ← hNd]
  apply Real.sqrt_le_iff.mpr
  refine ⟨by positivity, ?_⟩
  rw [add_sq, hsq, div_le_iff₀ hN]
  have h5 : 2 * δ * T ≤ 2 * δ * (Real.sqrt (S / N) * N) := mul_le_mul_of_nonneg_left ((div_le_iff₀ hN).mp h4) (by positivity)
  have h6 : (S / N + 2 * Real.sqrt (S / N) * δ + δ ^ 2) * N = S + 2 * δ * (Real.sqrt (S / N) * N) + N * δ ^ 2 := by field_simp
  show _ ≤ (S / N + 2 * Real.sqrt (S / N) * δ + δ ^ 2) * N
  rw [h6]
  linarith

theorem rms_shift {l m : List ℝ} {δ : ℝ} (hδ : 0 ≤ δ) (h : List.Forall₂ (fun x y => |x - y| ≤ δ) l m) : |rms l - rms m| ≤ δ := by
  have h1 := rms_shift_le hδ h
  have h2 := rms_shift_le hδ (h.flip.imp fun y x (hxy : |x - y| ≤ δ) => show |y - x| ≤ δ by rw [abs_sub_comm]; exact hxy)
  rw [abs_le]; constructor <;> linarith

theorem rms_bound {l : List ℝ} {V : ℝ} (hV : 0 ≤ V) (h : ∀ x ∈ l, |x| ≤ V) : rms l ≤ V := by
  have := rms_shift_le (l := l) (m := l.map fun _ => 0) hV (by
    rw [List.forall₂_map_right_iff, List.forall₂_same]
    intro x hx
    simpa using h x hx)
  have h0 : rms (l.map fun _ => (0 : ℝ)) = 0 := by simp [rms]
  linarith

theorem popStd_rms (l : List ℝ) : popStd l = rms (l.map (· - l.sum / l.length)) := by
  unfold popStd rms
  rw [List.map_map, List.length_map]
  rfl

theorem avg_close {l m : List ℝ} {δ : ℝ} (hne : l ≠ []) (h : List.Forall₂ (fun x y => |x - y| ≤ δ) l m) :
    |l.sum / l.length - m.sum / m.length| ≤ δ := by
  have hlen := h.length_eq
  have hN : (0 : ℝ) < l.length := by exact_mod_cast List.length_pos_iff.mpr hne
  have h1 : |l.sum - m.sum| ≤ l.length * δ := by
    clear hlen hN hne
    induction h with
    | nil => simp
    | @cons x y l m hxy _ ih =>
      simp only [List.sum_cons, List.length_cons, Nat.cast_add, Nat.cast_one]
      calc |x + l.sum - (y + m.sum)| = |(x - y) + (l.sum - m.sum)| := by ring_nf
        _ ≤ _ := abs_add_le _ _
        _ ≤ _ := by linarith
  rw [← hlen, ← sub_div, abs_div, abs_of_pos hN, div_le_iff₀ hN]
  linarith

theorem popStd_shift {l m : List ℝ} {δ : ℝ} (hδ : 0 ≤ δ) (h : List.Forall₂ (fun x y => |x - y| ≤ δ) l m) :
    |popStd l - popStd m| ≤ 2 * δ := by
  rcases eq_or_ne l [] with rfl | hne
  · cases h
    simp [popStd, hδ]
  have hmean := avg_close hne h
  rw [popStd_rms, popStd_rms]
  apply rms_shift (by positivity)
  rw [List.forall₂_map_left_iff, List.forall₂_map_right_iff]
  refine h.imp fun x y hxy => ?_
  calc |x - l.sum / l.length - (y - m.sum / m.length)| = |(x - y) - (l.sum / l.length - m.sum / m.length)| := by ring_nf
    _ ≤ _ := abs_sub _ _
    _ ≤ _ := by linarith

/-- Square roots of numbers that agree up to a relative error and a small absolute one. -/
theorem sqrt_close {a b α β : ℝ} (ha : 0 ≤ a) (hb : 0 ≤ b) (hα : 0 ≤ α) (hα1 : α ≤ 1) (hβ : 0 ≤ β) (h : |a - b| ≤ α * b + β ^ 2) :
    |Real.sqrt a - Real.sqrt b| ≤ α * Real.sqrt b + β := by
  have hsb := Real.sqrt_nonneg b
  have hsq := Real.sq_sqrt hb
  have hsqa := Real.sq_sqrt ha
  have hsa := Real.sqrt_nonneg a
  obtain ⟨h1, h2⟩ := abs_le.mp h
  rw [abs_le]
  constructor
  · have : (1 - α) * Real.sqrt b ≤ Real.sqrt a + β := by
      refine le_of_abs_le (abs_le_of_sq_le_sq ?_ (by positivity))
      have e1 : ((1 - α) * Real.sqrt b) ^ 2 = (1 - α) ^ 2 * b := by rw [mul_pow, hsq]
      have e2 : (1 - α) ^ 2 * b ≤ (1 - α) * b := mul_le_mul_of_nonneg_right (by nlinarith) hb
      have e3 : 0 ≤ 2 * Real.sqrt a * β := by positivity
      have e4 : (Real.sqrt a + β) ^ 2 = a + 2 * Real.sqrt a * β + β ^ 2 := by rw [add_sq, hsqa]
      rw [e1, e4]
      linarith
    linarith
  · have : Real.sqrt a ≤ (1 + α) * Real.sqrt b + β := by
      refine le_of_abs_le (abs_le_of_sq_le_sq ?_ (by positivity))
      have e0 : 0 ≤ 2 * ((1 + α) * Real.sqrt b) * β := by positivity
      have e1 : ((1 + α) * Real.sqrt b + β) ^ 2 = (1 + α) ^ 2 * b + 2 * ((1 + α) * Real.sqrt b) * β + β ^ 2 := by rw [add_sq, mul_pow, hsq]
      have e2 : (1 + α) * b ≤ (1 + α) ^ 2 * b := mul_le_mul_of_nonneg_right (by nlinarith) hb
      rw [e1, hsqa]
      linarith
    linarith

section std
variable {A : Arith}

theorem abs_sum_div_le {v : List ℝ} {V : ℝ} (hne : v ≠ []) (hV : ∀ x ∈ v, |x| ≤ V) : (v.map (|·|)).sum / v.length ≤ V := by
  have hN : (0 : ℝ) < v.length := by exact_mod_cast List.length_pos_iff.mpr hne
  rw [div_le_iff₀ hN]
  have := List.sum_le_card_nsmul (v.map (|·|)) V fun x hx => by
    obtain ⟨y, hy, rfl⟩ := List.mem_map.mp hx
    exact hV y hy
  simpa [mul_comm] using this

/-- `np.mean` of finite numbers. -/
theorem meanD_close (hA : IsDouble A) {v : List ℝ} (hne : v ≠ []) (hf : v.length ≤ 2 ^ 40) :
    meanD A (v.map fin) = fin (A.rnd (A.total v / v.length)) ∧
      |A.rnd (A.total v / v.length) - v.sum / v.length| ≤ 4 * uu * v.length * ((v.map (|·|)).sum / v.length) + 4 * eta := by
  have hu := uu_pos
  have he := eta_pos
  have hN : (1 : ℝ) ≤ v.length := by exact_mod_cast List.length_pos_iff.mpr hne
  have hf' : (v.length : ℝ) ≤ 2 ^ 40 := by exact_mod_cast hf
  constructor
  · unfold meanD
    rw [sumD_fin, List.length_map]
    unfold F.ofNat
    rw [fin_div _ _ (by linarith)]
    rfl
  · have hnu : (v.length : ℝ) * uu ≤ 1 / 400 := by
      have h1 : (v.length : ℝ) * uu ≤ 2 ^ 40 * uu := mul_le_mul_of_nonneg_right hf' hu.le
      have h2 : (2 : ℝ) ^ 40 * uu ≤ 1 / 400 := by unfold uu; norm_num
      linarith
    have h1 := (hA.total v).err_abs hA.err hne (by linarith)
    set N : ℝ := (v.length : ℝ)
    have hS0 : 0 ≤ (v.map (|·|)).sum := List.sum_nonneg fun x hx => by
      obtain ⟨y, -, rfl⟩ := List.mem_map.mp hx
      exact abs_nonneg y
    have hN0 : 0 < N := by linarith
    set B := (v.map (|·|)).sum / N with hB
    have hBN : (v.map (|·|)).sum = N * B := by rw [hB]; field_simp
    have hB0 : 0 ≤ B := by positivity
    rw [hBN] at h1
    have habs : |v.sum / N| ≤ B := by
      rw [abs_div, abs_of_pos hN0, hB]
      apply div_le_div_of_nonneg_right _ hN0.le
      clear * -
      induction v with
      | nil => simp
      | cons a l ih =>
        simp only [List.sum_cons, List.map_cons]
        exact (abs_add_le _ _).trans (by linarith)
    have h2 : |A.total v / N - v.sum / N| ≤ 2 * uu * (N * B) + 2 * eta := by
      rw [← sub_div, abs_div, abs_of_pos hN0, div_le_iff₀ hN0]
      refine h1.trans ?_
      have : 0 ≤ 2 * uu * (N * B) + 2 * eta := by positivity
      nlinarith
    have h3 := hA.err (A.total v / N)
    have hus : uu ≤ 1 / 1000 := by unfold uu; norm_num
    have h5 : 2 * uu * (N * B) ≤ 1 / 100 * B := by
      have := mul_le_mul_of_nonneg_right hnu hB0
      nlinarith
    have h4 : |A.total v / N| ≤ 2 * B + 2 * eta := by
      calc |A.total v / N| = |(A.total v / N - v.sum / N) + v.sum / N| := by ring_nf
        _ ≤ _ := abs_add_le _ _
        _ ≤ _ := by linarith
    have h6 := mul_le_mul_of_nonneg_left h4 hu.le
    have h7 : uu * B ≤ uu * (N * B) := mul_le_mul_of_nonneg_left (by nlinarith) hu.le
    have h8 : uu * eta ≤ 1 / 1000 * eta := mul_le_mul_of_nonneg_right hus he.le
    calc |A.rnd (A.total v / N) - v.sum / N| = |(A.rnd (A.total v / N) - A.total v / N) + (A.total v / N - v.sum / N)| := by ring_nf
      _ ≤ _ := abs_add_le _ _
      _ ≤ (uu * (2 * B + 2 * eta) + eta) + (2 * uu * (N * B) + 2 * eta) := by linarith
      _ ≤ _ := by linarith

/-- `np.std` of finite numbers. -/
theorem stdD_close (hA : IsDouble A) {v : List ℝ} (hne : v ≠ []) (hf : v.length ≤ 2 ^ 40) {V : ℝ} (hV : ∀ x ∈ v, |x| ≤ V) :
    ∃ r, 0 ≤ r ∧ stdD A (v.map fin) = fin r ∧ |r - popStd v| ≤ v.length * 2⁻¹ ^ 47 * V + 2⁻¹ ^ 528 := by
  have hu := uu_pos
  have he := eta_pos
  have hus : uu ≤ 1 / 1000 := by unfold uu; norm_num
  have hN : (1 : ℝ) ≤ v.length := by exact_mod_cast List.length_pos_iff.mpr hne
  have hf' : (v.length : ℝ) ≤ 2 ^ 40 := by exact_mod_cast hf
  have hV0 : 0 ≤ V := by
    obtain ⟨x, hx⟩ := List.exists_mem_of_ne_nil v hne
    exact (abs_nonneg x).trans (hV x hx)
  have hnu : (v.length : ℝ) * uu ≤ 1 / 400 := by
    have h1 : (v.length : ℝ) * uu ≤ 2 ^ 40 * uu := mul_le_mul_of_nonneg_right hf' hu.le
    have h2 : (2 : ℝ) ^ 40 * uu ≤ 1 / 400 := by unfold uu; norm_num
    linarith
  obtain ⟨m1, m2⟩ := meanD_close hA hne hf
  have hB := abs_sum_div_le hne hV
  set m := A.rnd (A.total v / v.length) with hm
  set d := v.map fun x => A.rnd (x - m) with hd
  set q := d.map fun x => A.rnd (x * x) with hq
  have hql : q.length = v.length := by rw [hq, hd, List.length_map, List.length_map]
  have hdl : d.length = v.length := by rw [hd, List.length_map]
  have hqne : q ≠ [] := by rw [← List.length_pos_iff, hql]; exact List.length_pos_iff.mpr hne
  obtain ⟨s1, s2⟩ := meanD_close hA hqne (by rw [hql]; exact hf)
  rw [hql] at s1 s2
  set var := A.rnd (A.total q / v.length) with hvar
  have hq0 : ∀ x ∈ q, 0 ≤ x := by
    intro x hx
    obtain ⟨y, -, rfl⟩ := List.mem_map.mp hx
    exact hA.nonneg (mul_self_nonneg y)
  have hvar0 : 0 ≤ var := hA.nonneg (div_nonneg ((hA.total q).nonneg hA.mono hA.zero hq0) (by linarith))
  set N : ℝ := (v.length : ℝ) with hNd
  have hN0 : 0 < N := by linarith
  refine ⟨A.rnd (Real.sqrt var), hA.nonneg (Real.sqrt_nonneg _), ?_, ?_⟩
  · unfold stdD
    dsimp only
    rw [m1]
    have : (v.map fin).map (fun x => A.round (sq (A.round (x - fin m)))) = q.map fin := by
      rw [hq, hd, List.map_map, List.map_map, List.map_map]
      rfl
    rw [this, s1]
    show A.round (if var < 0 then nan else fin (Real.sqrt var)) = _
    rw [if_neg hvar0.not_gt]
    rfl
  · have hmean : |m - v.sum / N| ≤ 4 * uu * N * V + 4 * eta := by
      refine m2.trans ?_
      have := mul_le_mul_of_nonneg_left hB (by positivity : 0 ≤ 4 * uu * N)
      linarith
    have h4V : 4 * uu * N * V ≤ 1 / 100 * V := by
      have := mul_le_mul_of_nonneg_right hnu hV0
      nlinarith
    have huV : uu * V ≤ uu * N * V := by
      have : 1 * (uu * V) ≤ N * (uu * V) := mul_le_mul_of_nonneg_right hN (by positivity)
      linarith
    have hue : uu * eta ≤ 1 / 1000 * eta := mul_le_mul_of_nonneg_right hus he.le
    have hmb : |v.sum / N| ≤ V := by
      have := avg_close (l := v) (m := v.map fun _ => 0) (δ := V) hne (by
        rw [List.forall₂_map_right_iff, List.forall₂_same]
        intro x hx
        simpa using hV x hx)
      simpa using this
    have hm3 : |m| ≤ V + (1 / 100 * V + 4 * eta) := by
      calc |m| = |(m - v.sum / N) + v.sum / N| := by ring_nf
        _ ≤ _ := abs_add_le _ _
        _ ≤ _ := by linarith
    have hdd : List.Forall₂ (fun x y => |x - y| ≤ 7 * uu * N * V + 10 * eta) d (v.map (· - v.sum / N)) := by
      rw [hd, List.forall₂_map_left_iff, List.forall₂_map_right_iff, List.forall₂_same]
      intro x hx
      have h1 := hA.err (x - m)
      have h2 : |x - m| ≤ 3 * V + 4 * eta := (abs_sub _ _).trans (by linarith [hV x hx])
      have h3 := mul_le_mul_of_nonneg_left h2 hu.le
      calc |A.rnd (x - m) - (x - v.sum / N)| = |(A.rnd (x - m) - (x - m)) - (m - v.sum / N)| := by ring_nf
        _ ≤ _ := abs_sub _ _
        _ ≤ (uu * (3 * V + 4 * eta) + eta) + (4 * uu * N * V + 4 * eta) := by linarith
        _ ≤ _ := by linarith
    have hR := rms_shift (by positivity) hdd
    rw [hNd, ← popStd_rms] at hR
    rw [← hNd] at hR
    set R := rms d with hRd
    have hR0 : 0 ≤ R := rms_nonneg d
    have hp2 : popStd v ≤ 2 * V := by
      rw [popStd_rms]
      apply rms_bound (by positivity)
      intro x hx
      obtain ⟨y, hy, rfl⟩ := List.mem_map.mp hx
      exact (abs_sub _ _).trans (by linarith [hV y hy])
    have hRV : R ≤ 3 * V + 10 * eta := by
      have := (abs_le.mp hR).2
      linarith
    -- the mean of the rounded squares
    have hR2 : R ^ 2 = (d.map (· ^ 2)).sum / N := by
      rw [hRd]
      unfold rms
      rw [Real.sq_sqrt, hdl]
      refine div_nonneg (List.sum_nonneg fun x hx => ?_) (by positivity)
      obtain ⟨y, -, rfl⟩ := List.mem_map.mp hx
      positivity
    have hqs : |q.sum - (d.map (· ^ 2)).sum| ≤ uu * (d.map (· ^ 2)).sum + N * eta := by
      have gen : ∀ d : List ℝ, |(d.map fun x => A.rnd (x * x)).sum - (d.map (· ^ 2)).sum| ≤ uu * (d.map (· ^ 2)).sum + d.length * eta := by
        intro d
        induction d with
        | nil => simp
        | cons x d ih =>
          simp only [List.map_cons, List.sum_cons, List.length_cons, Nat.cast_add, Nat.cast_one]
          have h1 := hA.err (x * x)
          rw [abs_of_nonneg (mul_self_nonneg x)] at h1
          calc _ = |(A.rnd (x * x) - x * x) + ((d.map fun x => A.rnd (x * x)).sum - (d.map (· ^ 2)).sum)| := by ring_nf
            _ ≤ _ := abs_add_le _ _
            _ ≤ _ := by rw [sq x]; linarith
      rw [hNd, ← hdl, hq]
      exact gen d
    have hqm : |q.sum / N - R ^ 2| ≤ uu * R ^ 2 + eta := by
      rw [hR2, ← sub_div, abs_div, abs_of_pos hN0, div_le_iff₀ hN0]
      have : (uu * ((d.map (· ^ 2)).sum / N) + eta) * N = uu * (d.map (· ^ 2)).sum + N * eta := by field_simp
      rw [this]
      exact hqs
    have hqa : (q.map (|·|)).sum = q.sum := by
      congr 1
      conv_rhs => rw [← List.map_id q]
      apply List.map_congr_left
      intro x hx
      exact abs_of_nonneg (hq0 x hx)
    rw [hqa] at s2
    have hRR : 0 ≤ R ^ 2 := by positivity
    have hq2 : q.sum / N ≤ 2 * R ^ 2 + eta := by
      have h1 := (abs_le.mp hqm).2
      have h2 : uu * R ^ 2 ≤ 1 / 1000 * R ^ 2 := mul_le_mul_of_nonneg_right hus hRR
      linarith
    have hvr : |var - R ^ 2| ≤ 9 * uu * N * R ^ 2 + 6 * eta := by
      have h1 := mul_le_mul_of_nonneg_left hq2 (by positivity : 0 ≤ 4 * uu * N)
      have h2 : uu * R ^ 2 ≤ N * (uu * R ^ 2) := by
        have : 1 * (uu * R ^ 2) ≤ N * (uu * R ^ 2) := mul_le_mul_of_nonneg_right hN (by positivity)
        linarith
      have h3 : 4 * uu * N * eta ≤ eta := by nlinarith
      calc |var - R ^ 2| = |(var - q.sum / N) + (q.sum / N - R ^ 2)| := by ring_nf
        _ ≤ _ := abs_add_le _ _
        _ ≤ (4 * uu * N * (q.sum / N) + 4 * eta) + (uu * R ^ 2 + eta) := by linarith
        _ ≤ _ := by linarith
    -- the square root
    have hb2 : 6 * eta ≤ ((2⁻¹ : ℝ) ^ 530) ^ 2 := by
      have h1 : 6 * eta ≤ 2 ^ 3 * eta := by linarith
      have h2 : (2 : ℝ) ^ 3 * eta = 2⁻¹ ^ 1072 := by
        unfold eta
        rw [show (1075 : ℕ) = 3 + 1072 from rfl, pow_add, ← mul_assoc, ← mul_pow]
        norm_num
      rw [h2] at h1
      refine h1.trans ?_
      rw [← pow_mul]
      exact pow_le_pow_of_le_one (by norm_num) (by norm_num) (by norm_num)
    have hb3 : eta ≤ (2⁻¹ : ℝ) ^ 530 * (1 / 1000) := by
      have h1 : (2⁻¹ : ℝ) ^ 530 * 2⁻¹ ^ 10 ≤ (2⁻¹ : ℝ) ^ 530 * (1 / 1000) := mul_le_mul_of_nonneg_left (by norm_num) (by positivity)
      refine le_trans ?_ h1
      rw [← pow_add]
      unfold eta
      exact pow_le_pow_of_le_one (by norm_num) (by norm_num) (by norm_num)
    have hb4 : (2⁻¹ : ℝ) ^ 528 = 4 * 2⁻¹ ^ 530 := by
      rw [show (530 : ℕ) = 528 + 2 from rfl, pow_add]
      generalize (2⁻¹ : ℝ) ^ 528 = z
      norm_num
      ring
    have hb0 : (0 : ℝ) ≤ 2⁻¹ ^ 530 := by positivity
    rw [hb4]
    generalize (2⁻¹ : ℝ) ^ 530 = β at *
    have hsq := sqrt_close (α := 9 * uu * N) hvar0 hRR (by positivity) (by linarith) hb0 (hvr.trans (by linarith))
    rw [Real.sqrt_sq hR0] at hsq
    have h9 : 9 * uu * N * R ≤ 1 / 10 * R := by
      have := mul_le_mul_of_nonneg_right hnu hR0
      nlinarith
    have hsR : Real.sqrt var ≤ 2 * R + β := by
      have := (abs_le.mp hsq).2
      linarith
    have hr := hA.err (Real.sqrt var)
    rw [abs_of_nonneg (Real.sqrt_nonneg _)] at hr
    have h10 := mul_le_mul_of_nonneg_left hsR hu.le
    have h11 : uu * R ≤ uu * N * R := by
      have : 1 * (uu * R) ≤ N * (uu * R) := mul_le_mul_of_nonneg_right hN (by positivity)
      linarith
    have h12 : uu * N * R ≤ uu * N * (3 * V + 10 * eta) := mul_le_mul_of_nonneg_left hRV (by positivity)
    have h13 : uu * N * eta ≤ 1 / 400 * eta := by
      have := mul_le_mul_of_nonneg_right hnu he.le
      linarith
    have h14 : uu * β ≤ 1 / 1000 * β := mul_le_mul_of_nonneg_right hus hb0
    have h47 : (2⁻¹ : ℝ) ^ 47 = 64 * uu := by unfold uu; norm_num
    rw [h47]
    calc |A.rnd (Real.sqrt var) - popStd v| = |(A.rnd (Real.sqrt var) - Real.sqrt var) + ((Real.sqrt var - R) + (R - popStd v))| := by ring_nf
      _ ≤ |A.rnd (Real.sqrt var) - Real.sqrt var| + (|Real.sqrt var - R| + |R - popStd v|) :=
        (abs_add_le _ _).trans (by gcongr; exact abs_add_le _ _)
      _ ≤ (uu * (2 * R + β) + eta) + ((9 * uu * N * R + β) + (7 * uu * N * V + 10 * eta)) := by linarith
      _ ≤ _ := by
        have h15 : 0 ≤ uu * N * V := by positivity
        linarith

end std

end Poco
