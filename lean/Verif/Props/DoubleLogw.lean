import Verif.Lemmas.DoubleLogw
import Verif.Props.Particles
import Verif.Props.DoubleDemo

/-! # C125: importance weights and evidence from a history, in double precision -/

namespace Poco
open F Spec

variable {d : ℕ} {B : Type} {A : ArithLog}

/-- All the numbers that occur are below this bound. -/
noncomputable def capOf (M : ℝ) : ℝ := 4 * M + 128

theorem round_step (hA : IsDouble A.toArith) {x y e K : ℝ} (hK : 16 ≤ K) (hx : |x| ≤ K) (h : |x - y| ≤ e) : |A.rnd x - y| ≤ e + 2 * uu * K := by
  have hu := uu_pos
  have heta : eta ≤ uu := by unfold eta uu; exact pow_le_pow_of_le_one (by norm_num) (by norm_num) (by norm_num)
  have h1 := hA.err x
  have h2 : uu * |x| ≤ uu * K := mul_le_mul_of_nonneg_left hx hu.le
  have h3 : uu * 16 ≤ uu * K := mul_le_mul_of_nonneg_left hK hu.le
  calc |A.rnd x - y| = |(A.rnd x - x) + (x - y)| := by ring_nf
    _ ≤ |A.rnd x - x| + |x - y| := abs_add_le _ _
    _ ≤ _ := by linarith

/-- `np.log` of a count. -/
theorem log_count (hA : IsDoubleLog A) {k : ℕ} (h1 : 1 ≤ k) (h2 : k ≤ 2 ^ 40) : A.logF (ofNat k) = fin (A.log k) ∧
    |A.log k - Real.log k| ≤ 64 * uu ∧ 0 ≤ Real.log k ∧ Real.log k ≤ 28 := by
  have hu := uu_pos
  have hk : (1 : ℝ) ≤ k := by exact_mod_cast h1
  have hl0 := Real.log_nonneg hk
  have hl : Real.log k ≤ 28 := by
    have hk2 : (k : ℝ) ≤ 2 ^ 40 := by exact_mod_cast h2
    have : Real.log k ≤ Real.log (2 ^ 40) := Real.log_le_log (by linarith) hk2
    rw [Real.log_pow] at this
    have := Real.log_two_lt_d9
    push_cast at *
    linarith
  refine ⟨?_, ?_, hl0, hl⟩
  · unfold ofNat ArithLog.logF
    show (if ((k : ℕ) : ℝ) < 0 then nan else if (k : ℝ) = 0 then ninf else fin (A.log k)) = _
    rw [if_neg (by linarith), if_neg (by linarith)]
  · have h3 := hA.log_near k hk
    have hu2 : (2⁻¹ : ℝ) ^ 52 = 2 * uu := by unfold uu; norm_num
    rw [hu2] at h3
    have h4 : 2 * uu * Real.log k ≤ 2 * uu * 28 := mul_le_mul_of_nonneg_left hl (by linarith)
    linarith

theorem abs_chain {x y e K : ℝ} (h : |x - y| ≤ e) (hy : |y| ≤ K) : |x| ≤ K + e := by
  calc |x| = |(x - y) + y| := by ring_nf
    _ ≤ |x - y| + |y| := abs_add_le _ _
    _ ≤ K + e := by linarith

section
variable {h : List Stage} {n : ℕ} {M : ℝ}

theorem Spec.BoundedHistory.counts (hb : BoundedHistory h n M) : (1 : ℝ) ≤ h.length ∧ (h.length : ℝ) ≤ (allLogl h).length ∧ ((allLogl h).length : ℝ) ≤ 2 ^ 40 ∧ 0 ≤ M := by
  obtain ⟨h1, h2, h3⟩ := hb.rect
  have hl : 1 ≤ h.length := List.length_pos_iff.mpr h1
  refine ⟨by exact_mod_cast hl, ?_, ?_, ?_⟩
  · rw [hb.rect.length_allLogl]
    exact_mod_cast Nat.le_mul_of_pos_right _ h2
  · rw [hb.rect.length_allLogl]
    exact_mod_cast hb.few
  · obtain ⟨s, hs⟩ := List.exists_mem_of_ne_nil h h1
    exact (abs_nonneg _).trans (hb.logz s hs)

theorem log_mixture (hne : h ≠ []) (l : ℝ) : Real.log (mixture h l) = lseR (h.map fun s => l * s.beta - s.logz) - Real.log h.length := by
  have hp : 0 < (h.map fun s => Real.exp (l * s.beta) / Real.exp s.logz).sum :=
    sum_map_pos h _ hne (fun _ _ => by positivity)
  unfold mixture lseR
  rw [Real.log_div hp.ne' (length_pos_real hne).ne', List.map_map]
  simp [Function.comp_def, Real.exp_sub]

/-- The computed mixture density. -/
theorem mixDenomD_close (hA : IsDoubleLog A) (hb : BoundedHistory h n M) {l : ℝ} (hl : |l| ≤ M) :
    ∃ b, mixDenomD A (h.map fun s => fin s.beta) (h.map fun s => fin s.logz) (fin l) = fin b ∧
      |b - Real.log (mixture h l)| ≤ (4 * h.length + 8) * (uu * capOf M) ∧ |Real.log (mixture h l)| ≤ 2 * M := by
  have hu := uu_pos
  have hd := hA.double
  obtain ⟨hT, hTN, hN, hM⟩ := hb.counts
  have hne := hb.rect.1
  set K := capOf M with hK
  have hK16 : 16 ≤ K := by rw [hK]; unfold capOf; linarith
  have hKM : K = 4 * M + 128 := rfl
  set q := uu * K with hq
  have hq0 : 0 < q := by positivity
  have hq16 : 16 * uu ≤ q := by rw [hq]; nlinarith
  have hqK : 2 ^ 45 * q ≤ K := by
    have : (2 : ℝ) ^ 45 * uu ≤ 1 := by unfold uu; norm_num
    calc 2 ^ 45 * q = (2 ^ 45 * uu) * K := by rw [hq]; ring
      _ ≤ 1 * K := mul_le_mul_of_nonneg_right this (by linarith)
      _ = K := one_mul K
  have hTq : (h.length : ℝ) * q ≤ 2 ^ 40 * q := mul_le_mul_of_nonneg_right (hTN.trans hN) hq0.le
  have h45 : (2 : ℝ) ^ 45 = 32 * 2 ^ 40 := by norm_num
  have h40 : (1000 : ℝ) ≤ 2 ^ 40 := by norm_num
  have hsmall : 1000 * q ≤ 2 ^ 40 * q := mul_le_mul_of_nonneg_right h40 hq0.le
  -- the entries
  have hentry : ∀ s ∈ h, |l * s.beta - s.logz| ≤ 2 * M ∧ |A.rnd (A.rnd (l * s.beta) - s.logz) - (l * s.beta - s.logz)| ≤ 4 * q := by
    intro s hs
    obtain ⟨b0, b1⟩ := hb.beta s hs
    have hz := hb.logz s hs
    have h1 : |l * s.beta| ≤ M := by
      rw [abs_mul, abs_of_nonneg b0]
      calc |l| * s.beta ≤ |l| * 1 := mul_le_mul_of_nonneg_left b1 (abs_nonneg l)
        _ ≤ M := by linarith
    have h2 : |l * s.beta - s.logz| ≤ 2 * M := by
      have := abs_sub (l * s.beta) s.logz
      linarith
    have h3 := round_step hd hK16 (x := l * s.beta) (y := l * s.beta) (e := 0) (by linarith) (by simp)
    rw [zero_add, mul_assoc] at h3
    have h4 : |(A.rnd (l * s.beta) - s.logz) - (l * s.beta - s.logz)| ≤ 2 * (uu * K) := by
      rw [show (A.rnd (l * s.beta) - s.logz) - (l * s.beta - s.logz) = A.rnd (l * s.beta) - l * s.beta by ring]; exact h3
    have h5 := abs_chain h4 h2
    have h6 := round_step hd hK16 (by linarith) h4
    exact ⟨h2, by rw [hq]; linarith⟩
  set a := h.map fun s => A.rnd (A.rnd (l * s.beta) - s.logz) with ha
  set a' := h.map fun s => l * s.beta - s.logz with ha'
  have hane : a ≠ [] := by simpa [ha] using hne
  have halen : (a.length : ℝ) = h.length := by rw [ha, List.length_map]
  have haM : ∀ x ∈ a, |x| ≤ 2 * M + 4 * q := by
    intro x hx
    obtain ⟨s, hs, rfl⟩ := List.mem_map.mp hx
    exact abs_chain (hentry s hs).2 (hentry s hs).1
  have hTnat : h.length ≤ 2 ^ 40 := by exact_mod_cast hTN.trans hN
  obtain ⟨hlog1, hlog2, hlog3, hlog4⟩ := log_count hA (k := h.length) (by exact_mod_cast hT) hTnat
  obtain ⟨r, hr1, hr2⟩ := lseD_close hA hK16 a hane haM (by
    rw [halen, mul_assoc 4, ← hq]
    linarith)
  rw [halen, mul_assoc 4, ← hq] at hr2
  have hshift : |lseR a - lseR a'| ≤ 4 * q := by
    apply lseR_shift _ hane
    rw [ha, ha', List.forall₂_map_left_iff, List.forall₂_map_right_iff, List.forall₂_same]
    exact fun s hs => (hentry s hs).2
  have hmix := log_mixture hne l
  have hrange := lseR_range (l := a') (by simpa [ha'] using hne) (K := 2 * M) (by
    intro x hx
    obtain ⟨s, hs, rfl⟩ := List.mem_map.mp hx
    exact (hentry s hs).1)
  rw [show (a'.length : ℝ) = h.length by rw [ha', List.length_map]] at hrange
  have hmixM : |Real.log (mixture h l)| ≤ 2 * M := by rw [hmix, abs_le]; exact hrange
  have hdiff : |(r - A.log h.length) - Real.log (mixture h l)| ≤ h.length * (4 * q) + 4 * q + 64 * uu := by
    rw [hmix]
    have e1 := abs_le.mp hr2
    have e2 := abs_le.mp hshift
    have e3 := abs_le.mp hlog2
    rw [abs_le]
    constructor <;> linarith
  have hbK := abs_chain hdiff hmixM
  refine ⟨A.rnd (r - A.log h.length), ?_, ?_, hmixM⟩
  · unfold mixDenomD
    have e1 : (((h.map fun s => fin s.beta).zip (h.map fun s => fin s.logz)).map fun bz => A.round (A.round (fin l * bz.1) - bz.2)) = a.map fin := by
      rw [List.zip_map', ha, List.map_map, List.map_map]
      rfl
    rw [e1, hr1, List.length_map, hlog1, fin_sub]
    rfl
  · have h6 := round_step hd hK16 (by linarith) hdiff
    rw [mul_assoc, ← hq] at h6
    have h7 : 64 * uu ≤ 2 * q := by
      have : uu * 128 ≤ uu * K := mul_le_mul_of_nonneg_left (by linarith) hu.le
      linarith
    have h8 : h.length * (4 * q) + 4 * q + 4 * q = (4 * h.length + 8) * q := by ring
    linarith

/-- The computed unnormalised log-weight. -/
theorem rawLogwD_close (hA : IsDoubleLog A) (hb : BoundedHistory h n M) {β : ℝ} (hβ0 : 0 ≤ β) (hβ1 : β ≤ 1) {l : ℝ} (hl : |l| ≤ M) :
    ∃ w, A.round (A.round (fin l * fin β) - mixDenomD A (h.map fun s => fin s.beta) (h.map fun s => fin s.logz) (fin l)) = fin w ∧
      |w - Real.log (weight h β l)| ≤ (4 * h.length + 12) * (uu * capOf M) ∧ |Real.log (weight h β l)| ≤ 3 * M := by
  have hu := uu_pos
  have hd := hA.double
  obtain ⟨hT, hTN, hN, hM⟩ := hb.counts
  have hne := hb.rect.1
  obtain ⟨b, hb1, hb2, hb3⟩ := mixDenomD_close hA hb hl
  set K := capOf M with hK
  have hK16 : 16 ≤ K := by rw [hK]; unfold capOf; linarith
  have hKM : K = 4 * M + 128 := rfl
  set q := uu * K with hq
  have hq0 : 0 < q := by positivity
  have hqK : 2 ^ 45 * q ≤ K := by
    have : (2 : ℝ) ^ 45 * uu ≤ 1 := by unfold uu; norm_num
    calc 2 ^ 45 * q = (2 ^ 45 * uu) * K := by rw [hq]; ring
      _ ≤ 1 * K := mul_le_mul_of_nonneg_right this (by linarith)
      _ = K := one_mul K
  have hTq : (h.length : ℝ) * q ≤ 2 ^ 40 * q := mul_le_mul_of_nonneg_right (hTN.trans hN) hq0.le
  have h45 : (2 : ℝ) ^ 45 = 32 * 2 ^ 40 := by norm_num
  have h40 : (1000 : ℝ) ≤ 2 ^ 40 := by norm_num
  have hsmall : 1000 * q ≤ 2 ^ 40 * q := mul_le_mul_of_nonneg_right h40 hq0.le
  have h1 : |l * β| ≤ M := by
    rw [abs_mul, abs_of_nonneg hβ0]
    calc |l| * β ≤ |l| * 1 := mul_le_mul_of_nonneg_left hβ1 (abs_nonneg l)
      _ ≤ M := by linarith
  have h3 := round_step hd hK16 (x := l * β) (y := l * β) (e := 0) (by linarith) (by simp)
  rw [zero_add, mul_assoc, ← hq] at h3
  have hw : Real.log (weight h β l) = l * β - Real.log (mixture h l) := by
    unfold weight
    rw [Real.log_div (Real.exp_ne_zero _) (mixture_pos h hne l).ne', Real.log_exp]
  have hw3 : |Real.log (weight h β l)| ≤ 3 * M := by
    rw [hw]
    have := abs_sub (l * β) (Real.log (mixture h l))
    linarith
  have h4 : |(A.rnd (l * β) - b) - Real.log (weight h β l)| ≤ (4 * h.length + 8) * q + 2 * q := by
    rw [hw]
    have e1 := abs_le.mp h3
    have e2 := abs_le.mp hb2
    rw [abs_le]; constructor <;> linarith
  have h5 := abs_chain h4 hw3
  have e8 : (4 * (h.length : ℝ) + 8) * q = 4 * (h.length * q) + 8 * q := by ring
  have e12 : (4 * (h.length : ℝ) + 12) * q = 4 * (h.length * q) + 12 * q := by ring
  rw [e8] at h4 h5
  have h6 := round_step hd hK16 (by linarith) h4
  rw [mul_assoc, ← hq] at h6
  refine ⟨A.rnd (A.rnd (l * β) - b), ?_, ?_, hw3⟩
  · rw [hb1, fin_mul]
    rfl
  · rw [e12]
    linarith

/-- **C125.** In double precision, for a history of `T` iterations of `n` particles (`N = T·n` up to `2⁴⁰`), with temperatures in `[0,1]` and
log-likelihoods and log-evidences up to `M` in absolute value, `compute_logw_and_logz` returns finite numbers: the log-evidence is the exact one up to
`N·2⁻⁴⁶·(M + 32)`, and every log-weight is the logarithm of the exact weight up to `N·2⁻⁴⁵·(M + 32)` (with `normalize=False`: up to
`T·2⁻⁴⁷·(M + 32)`). -/
theorem C125_logw (hA : IsDoubleLog A) (past : Cols d B List) (hb : BoundedHistory h n M) (hh : Holds past h) {β : ℝ} (hβ0 : 0 ≤ β) (hβ1 : β ≤ 1) :
    ∃ (raw logw : List ℝ) (z : ℝ), computeLogwLogzD A past (fin β) true = .ok (logw.map fin, fin z) ∧
      computeLogwLogzD A past (fin β) false = .ok (raw.map fin, fin z) ∧
      |z - Real.log (totalWeight h β / (allLogl h).length)| ≤ (allLogl h).length * 2⁻¹ ^ 46 * (M + 32) ∧
      List.Forall₂ (fun x l => |x - Real.log (weight h β l)| ≤ h.length * 2⁻¹ ^ 47 * (M + 32)) raw (allLogl h) ∧
      List.Forall₂ (fun x l => |x - Real.log (weight h β l / totalWeight h β)| ≤ (allLogl h).length * 2⁻¹ ^ 45 * (M + 32)) logw (allLogl h) := by
  have hu := uu_pos
  have hd := hA.double
  obtain ⟨hT, hTN, hN, hM⟩ := hb.counts
  have hne := hb.rect.1
  have hna := hb.rect.allLogl_ne
  set K := capOf M with hK
  have hK16 : 16 ≤ K := by rw [hK]; unfold capOf; linarith
  have hKM : K = 4 * M + 128 := rfl
  set q := uu * K with hq
  have hq0 : 0 < q := by positivity
  have hqM : q = 2⁻¹ ^ 51 * (M + 32) := by rw [hq, hKM]; unfold uu; ring
  have hqK : 2 ^ 45 * q ≤ K := by
    have : (2 : ℝ) ^ 45 * uu ≤ 1 := by unfold uu; norm_num
    calc 2 ^ 45 * q = (2 ^ 45 * uu) * K := by rw [hq]; ring
      _ ≤ 1 * K := mul_le_mul_of_nonneg_right this (by linarith)
      _ = K := one_mul K
  set N : ℝ := ((allLogl h).length : ℝ) with hNd
  set T : ℝ := (h.length : ℝ) with hTd
  have hTq : T * q ≤ N * q := mul_le_mul_of_nonneg_right hTN hq0.le
  have hT1 : 1 * q ≤ T * q := mul_le_mul_of_nonneg_right hT hq0.le
  have hNq : N * q ≤ 2 ^ 40 * q := mul_le_mul_of_nonneg_right hN hq0.le
  have h45 : (2 : ℝ) ^ 45 = 32 * 2 ^ 40 := by norm_num
  have h40 : (1000 : ℝ) ≤ 2 ^ 40 := by norm_num
  have hsmall : 1000 * q ≤ 2 ^ 40 * q := mul_le_mul_of_nonneg_right h40 hq0.le
  have h64 : 64 * uu ≤ q := by
    have : uu * 64 ≤ uu * K := mul_le_mul_of_nonneg_left (by linarith) hu.le
    linarith
  have hlM : ∀ l ∈ allLogl h, |l| ≤ M := by
    intro l hl
    unfold allLogl at hl
    obtain ⟨s, hs, hls⟩ := List.mem_flatMap.mp hl
    exact hb.logl s hs l hls
  -- the unnormalised log-weights
  have hex : ∀ l : ℝ, ∃ w, |l| ≤ M → A.round (A.round (fin l * fin β) - mixDenomD A (h.map fun s => fin s.beta) (h.map fun s => fin s.logz) (fin l)) = fin w ∧
      |w - Real.log (weight h β l)| ≤ (4 * T + 12) * q ∧ |Real.log (weight h β l)| ≤ 3 * M := by
    intro l
    by_cases hl : |l| ≤ M
    · obtain ⟨w, hw⟩ := rawLogwD_close hA hb hβ0 hβ1 hl
      exact ⟨w, fun _ => hw⟩
    · exact ⟨0, fun h => absurd h hl⟩
  choose W hW using hex
  set raw := (allLogl h).map W with hraw
  have hrawne : raw ≠ [] := by simpa [hraw] using hna
  have hrawlen : (raw.length : ℝ) = N := by rw [hraw, List.length_map]
  have e12 : (4 * T + 12) * q = 4 * (T * q) + 12 * q := by ring
  have hrawM : ∀ x ∈ raw, |x| ≤ 3 * M + (4 * (T * q) + 12 * q) := by
    intro x hx
    obtain ⟨l, hl, rfl⟩ := List.mem_map.mp hx
    obtain ⟨-, w2, w3⟩ := hW l (hlM l hl)
    rw [← e12]
    exact abs_chain w2 w3
  have hNnat : (allLogl h).length ≤ 2 ^ 40 := by rw [hNd] at hN; exact_mod_cast hN
  obtain ⟨hlog1, hlog2, hlog3, hlog4⟩ := log_count hA (k := (allLogl h).length) (List.length_pos_iff.mpr hna) hNnat
  obtain ⟨r, hr1, hr2⟩ := lseD_close hA hK16 raw hrawne hrawM (by
    rw [hrawlen, mul_assoc 4, ← hq]
    linarith)
  rw [hrawlen, mul_assoc 4, ← hq] at hr2
  set ex := (allLogl h).map fun l => Real.log (weight h β l) with hexd
  have hshift : |lseR raw - lseR ex| ≤ 4 * (T * q) + 12 * q := by
    apply lseR_shift _ hrawne
    rw [hraw, hexd, List.forall₂_map_left_iff, List.forall₂_map_right_iff, List.forall₂_same]
    intro l hl
    rw [← e12]
    exact (hW l (hlM l hl)).2.1
  have hlse : lseR ex = Real.log (totalWeight h β) := by
    unfold lseR totalWeight
    rw [hexd, List.map_map]
    congr 2
    apply List.map_congr_left
    intro l _
    exact Real.exp_log (weight_pos h hne β l)
  rw [hlse] at hshift
  have htot : |Real.log (totalWeight h β)| ≤ 3 * M + 28 := by
    rw [← hlse]
    have := lseR_abs (l := ex) (by simpa [hexd] using hna) (K := 3 * M) (by
      intro x hx
      obtain ⟨l, hl, rfl⟩ := List.mem_map.mp hx
      exact (hW l (hlM l hl)).2.2)
    rw [hexd, List.length_map] at this
    linarith
  have hlser : |r - Real.log (totalWeight h β)| ≤ 4 * (N * q) + (4 * (T * q) + 12 * q) := by
    have e1 := abs_le.mp hr2
    have e2 := abs_le.mp hshift
    rw [abs_le]; constructor <;> linarith
  -- the evidence
  have hzx : |(r - A.log (allLogl h).length) - Real.log (totalWeight h β / (allLogl h).length)| ≤ 4 * (N * q) + (4 * (T * q) + 12 * q) + q := by
    rw [Real.log_div (totalWeight_pos hb.rect β).ne' (length_pos_real hna).ne']
    have e1 := abs_le.mp hlser
    have e2 := abs_le.mp hlog2
    rw [abs_le]; constructor <;> linarith
  have hzM : |Real.log (totalWeight h β / (allLogl h).length)| ≤ 3 * M + 56 := by
    rw [Real.log_div (totalWeight_pos hb.rect β).ne' (length_pos_real hna).ne']
    have e1 := abs_le.mp htot
    rw [abs_le]; constructor <;> linarith
  have hz1 := abs_chain hzx hzM
  have hz2 := round_step hd hK16 (by linarith) hzx
  rw [mul_assoc, ← hq] at hz2
  have hstep : ∀ norm, computeLogwLogzD A past (fin β) norm = .ok (if norm then (raw.map fin).map (fun x => A.round (x - A.lse (raw.map fin))) else raw.map fin,
      A.round (A.lse (raw.map fin) - A.logF (ofNat (raw.map fin).length))) := by
    intro norm
    obtain ⟨h1, h2, h3⟩ := hh
    have hr := hb.rect
    have hrag : (past.logl.any fun row => decide (row.length ≠ (past.logl.headD []).length)) = false := by
      rw [h1, List.any_eq_false]
      intro row hrow
      obtain ⟨s, hs, rfl⟩ := List.mem_map.mp hrow
      cases h with
      | nil => exact absurd rfl hne
      | cons s0 t =>
        simp [hr.2.2 s hs, hr.2.2 s0 (by simp)]
    unfold computeLogwLogzD
    rw [hrag, if_neg (by simp), if_neg (by rw [h2, h3]; simp), if_neg (by rw [h1]; simpa using hne)]
    simp only [h1, h2, h3, flatten_fin]
    have e1 : ((allLogl h).map fin).map (fun l => A.round (A.round (l * fin β) -
        mixDenomD A (h.map fun s => fin s.beta) (h.map fun s => fin s.logz) l)) = raw.map fin := by
      rw [hraw, List.map_map, List.map_map]
      apply List.map_congr_left
      intro l hl
      exact (hW l (hlM l hl)).1
    rw [e1]
  have hzeq : A.round (A.lse (raw.map fin) - A.logF (ofNat (raw.map fin).length)) = fin (A.rnd (r - A.log (allLogl h).length)) := by
    rw [hr1, List.length_map, hraw, List.length_map, hlog1]; rfl
  have hnorm : (raw.map fin).map (fun x => A.round (x - A.lse (raw.map fin))) = (raw.map fun x => A.rnd (x - r)).map fin := by
    rw [hr1]; clear_value raw; rw [List.map_map, List.map_map]; rfl
  refine ⟨raw, raw.map fun x => A.rnd (x - r), A.rnd (r - A.log (allLogl h).length), ?_, ?_, ?_, ?_, ?_⟩
  · rw [hstep]
    simp only [if_true]
    rw [hzeq, hnorm]
  · rw [hstep]
    simp only [Bool.false_eq_true, if_false]
    rw [hzeq]
  · refine hz2.trans ?_
    have : N * 2⁻¹ ^ 46 * (M + 32) = 32 * (N * q) := by rw [hqM]; ring
    rw [this]
    linarith
  · rw [hraw, List.forall₂_map_left_iff, List.forall₂_same]
    intro l hl
    refine (hW l (hlM l hl)).2.1.trans ?_
    have : T * 2⁻¹ ^ 47 * (M + 32) = 16 * (T * q) := by rw [hqM]; ring
    rw [this, e12]
    linarith
  · rw [hraw, List.map_map, List.forall₂_map_left_iff, List.forall₂_same]
    intro l hl
    obtain ⟨-, w2, w3⟩ := hW l (hlM l hl)
    rw [e12] at w2
    have hx : |(W l - r) - Real.log (weight h β l / totalWeight h β)| ≤ (4 * (T * q) + 12 * q) + (4 * (N * q) + (4 * (T * q) + 12 * q)) := by
      rw [Real.log_div (weight_pos h hne β l).ne' (totalWeight_pos hb.rect β).ne']
      have e1 := abs_le.mp w2
      have e2 := abs_le.mp hlser
      rw [abs_le]; constructor <;> linarith
    have hxM : |Real.log (weight h β l / totalWeight h β)| ≤ 6 * M + 28 := by
      rw [Real.log_div (weight_pos h hne β l).ne' (totalWeight_pos hb.rect β).ne']
      have e1 := abs_le.mp w3
      have e2 := abs_le.mp htot
      rw [abs_le]; constructor <;> linarith
    have hx1 := abs_chain hx hxM
    have hx2 := round_step hd (K := 2 * K) (by linarith) (by linarith) hx
    refine hx2.trans ?_
    have : N * 2⁻¹ ^ 45 * (M + 32) = 64 * (N * q) := by rw [hqM]; ring
    rw [this]
    have h9 : 2 * uu * (2 * K) = 4 * q := by rw [hq]; ring
    rw [h9]
    linarith

theorem exp_sub_one_abs {x c : ℝ} (h : |x| ≤ c) (hc : c ≤ 1) : |Real.exp x - 1| ≤ 2 * c := by
  have := Real.abs_exp_sub_one_le (x := x) (by linarith)
  linarith

/-- Normalising perturbed log-weights: a perturbation of at most `e` changes each normalised weight by a factor within `1 ± 4e`. -/
theorem softmax_close {lw ps : List ℝ} {e : ℝ} (he1 : 2 * e ≤ 1) (hlw : List.Forall₂ (fun x p => 0 < p ∧ |x - Real.log p| ≤ e) lw ps)
    (hsum : ps.sum = 1) :
    List.Forall₂ (fun x p => |Real.exp x / (lw.map Real.exp).sum - p| ≤ 4 * e * p) lw ps := by
  have hne : lw ≠ [] := by
    intro hc
    subst hc
    cases hlw
    simp at hsum
  have hps : ∀ p ∈ ps, 0 < p := by
    intro p hp
    clear hsum hne
    induction hlw with
    | nil => simp at hp
    | cons h1 _ ih =>
      rcases List.mem_cons.mp hp with rfl | hp
      · exact h1.1
      · exact ih hp
  set S := (lw.map Real.exp).sum with hS
  have hSpos : 0 < S := sum_exp_pos hne
  have hlogS : |Real.log S| ≤ e := by
    have h1 := lseR_shift (l := lw) (m := ps.map Real.log) (δ := e) (by
      rw [List.forall₂_map_right_iff]
      exact hlw.imp fun x p h => h.2) hne
    unfold lseR at h1
    have h2 : ((ps.map Real.log).map Real.exp) = ps := by
      rw [List.map_map]
      conv_rhs => rw [← List.map_id ps]
      apply List.map_congr_left
      intro p hp
      exact Real.exp_log (hps p hp)
    rw [h2, hsum, Real.log_one, sub_zero] at h1
    exact h1
  refine hlw.imp fun x p h => ?_
  obtain ⟨hp, hx⟩ := h
  have h3 : Real.exp x / S = p * Real.exp ((x - Real.log p) - Real.log S) := by
    rw [show x - Real.log p - Real.log S = x - Real.log S - Real.log p by ring, Real.exp_sub, Real.exp_log hp, Real.exp_sub, Real.exp_log hSpos]
    field_simp
  rw [h3, show p * Real.exp ((x - Real.log p) - Real.log S) - p = p * (Real.exp ((x - Real.log p) - Real.log S) - 1) by ring,
    abs_mul, abs_of_pos hp, mul_comm]
  apply mul_le_mul_of_nonneg_right _ hp.le
  have h4 : |(x - Real.log p) - Real.log S| ≤ 2 * e := by
    have := abs_sub (x - Real.log p) (Real.log S)
    linarith
  have := exp_sub_one_abs h4 he1
  linarith

/-- **C125.** The weights made from these log-weights, and normalised by `effective_sample_size`, are the exact normalised weights up to a relative
error of `N·2⁻⁴²·(M + 32) + 2⁻³⁴` (and an absolute one of `2⁻⁹⁰⁰`), if `N·(M + 32)` is at most `2⁴⁰`. -/
theorem C125_weights (hA : IsDoubleLog A) (past : Cols d B List) (hb : BoundedHistory h n M) (hh : Holds past h) {β : ℝ} (hβ0 : 0 ≤ β) (hβ1 : β ≤ 1)
    (hN : (allLogl h).length * (M + 32) ≤ 2 ^ 40) :
    ∃ (logw w v : List ℝ) (z e : ℝ), computeLogwLogzD A past (fin β) true = .ok (logw.map fin, fin z) ∧
      rawWeightsD A.toArith (logw.map fin) = .ok (w.map fin) ∧ effectiveSampleSizeD A.toArith (w.map fin) = (v.map fin, fin e) ∧
      List.Forall₂ (fun x l => |x - weight h β l / totalWeight h β| ≤
        ((allLogl h).length * 2⁻¹ ^ 42 * (M + 32) + 2⁻¹ ^ 34) * (weight h β l / totalWeight h β) + 2⁻¹ ^ 900) v (allLogl h) := by
  obtain ⟨raw, logw, z, h1, -, -, -, h5⟩ := C125_logw hA past hb hh hβ0 hβ1
  obtain ⟨hT, hTN, hN40, hM⟩ := hb.counts
  have hne := hb.rect.1
  have hna := hb.rect.allLogl_ne
  have hlen := h5.length_eq
  have hlw : logw ≠ [] := by
    intro hc
    rw [hc] at hlen
    exact hna (List.length_eq_zero_iff.mp hlen.symm)
  have hul : UsableLog (logw.map fin) := by
    refine ⟨by simp, by simp, ?_, ?_⟩
    · obtain ⟨x, hx⟩ := List.exists_mem_of_ne_nil _ hlw
      exact ⟨x, List.mem_map_of_mem hx⟩
    · rw [List.length_map, hlen]; exact_mod_cast hN40
  obtain ⟨w, v, e, w1, -, -, w4, -, -, w7, -⟩ := C122_weights hA.double (logw.map fin) hul
  refine ⟨logw, w, v, z, e, h1, w1, w4, ?_⟩
  have hwsum : ((logw.map fin).map weightOf).sum = (logw.map Real.exp).sum := by rw [List.map_map]; rfl
  rw [hwsum, List.forall₂_map_right_iff, List.length_map, hlen] at w7
  have htot := totalWeight_pos hb.rect β
  set δ : ℝ := (allLogl h).length * 2⁻¹ ^ 45 * (M + 32) with hδ
  have hδ2 : 2 * δ ≤ 1 := by
    have : δ = 2⁻¹ ^ 45 * ((allLogl h).length * (M + 32)) := by rw [hδ]; ring
    have h2 : (2⁻¹ : ℝ) ^ 45 * ((allLogl h).length * (M + 32)) ≤ 2⁻¹ ^ 45 * 2 ^ 40 := mul_le_mul_of_nonneg_left hN (by positivity)
    have h3 : (2⁻¹ : ℝ) ^ 45 * 2 ^ 40 ≤ 1 / 2 := by norm_num
    linarith
  have hsm := softmax_close (lw := logw) (ps := (allLogl h).map fun l => weight h β l / totalWeight h β) (e := δ) hδ2 (by
      rw [List.forall₂_map_right_iff]
      exact h5.imp fun x l hx => ⟨div_pos (weight_pos h hne β l) htot, hx⟩) (by
      have : ((allLogl h).map fun l => weight h β l / totalWeight h β) = ((allLogl h).map (weight h β)).map (· / totalWeight h β) := by
        rw [List.map_map]; rfl
      rw [this]
      simp only [div_eq_mul_inv]
      rw [List.sum_map_mul_right, List.map_id']
      exact mul_inv_cancel₀ htot.ne')
  rw [List.forall₂_map_right_iff] at hsm
  have hcomp : ∀ {a c : List ℝ} {b : List ℝ} {P Q R : ℝ → ℝ → Prop}, List.Forall₂ P a b → List.Forall₂ Q b c → (∀ x y z, P x y → Q y z → R x z) →
      List.Forall₂ R a c := by
    intro a c b P Q R hP
    induction hP generalizing c with
    | nil => intro hQ _; cases hQ; exact .nil
    | cons p1 _ ih =>
      intro hQ hR
      cases hQ with
      | cons q1 q2 => exact .cons (hR _ _ _ p1 q1) (ih q2 hR)
  generalize (2⁻¹ : ℝ) ^ 900 = t at w7 ⊢
  refine hcomp w7 hsm ?_
  intro x y l hx hy
  have hp : 0 < weight h β l / totalWeight h β := div_pos (weight_pos h hne β l) htot
  set p := weight h β l / totalWeight h β
  set p' := Real.exp y / (logw.map Real.exp).sum
  have hx' : |x - p'| ≤ ((allLogl h).length * 2⁻¹ ^ 49 + 2⁻¹ ^ 36) * p' + t := hx
  have hp' : p' ≤ 3 * p := by
    have := (abs_le.mp hy).2
    have h4 : 4 * δ * p ≤ 2 * p := mul_le_mul_of_nonneg_right (by linarith) hp.le
    linarith
  set N : ℝ := ((allLogl h).length : ℝ)
  have hc0 : 0 ≤ N * 2⁻¹ ^ 49 + (2⁻¹ : ℝ) ^ 36 := by positivity
  have e1 : (N * 2⁻¹ ^ 49 + (2⁻¹ : ℝ) ^ 36) * p' ≤ (N * 2⁻¹ ^ 49 + (2⁻¹ : ℝ) ^ 36) * (3 * p) := mul_le_mul_of_nonneg_left hp' hc0
  have e2 : |x - p| ≤ |x - p'| + |p' - p| := by
    calc |x - p| = |(x - p') + (p' - p)| := by ring_nf
      _ ≤ _ := abs_add_le _ _
  have e3 : (4 * δ + (N * 2⁻¹ ^ 49 + (2⁻¹ : ℝ) ^ 36) * 3) * p ≤ (N * 2⁻¹ ^ 42 * (M + 32) + 2⁻¹ ^ 34) * p := by
    apply mul_le_mul_of_nonneg_right _ hp.le
    have hNM : N * 32 ≤ N * (M + 32) := mul_le_mul_of_nonneg_left (by linarith) (by linarith)
    have e4 : N * 2⁻¹ ^ 42 * (M + 32) = 8 * δ := by rw [hδ]; ring
    have e5 : N * 2⁻¹ ^ 49 * 3 ≤ δ := by
      have : δ = 2⁻¹ ^ 45 * (N * (M + 32)) := by rw [hδ]; ring
      rw [this]
      have : (2⁻¹ : ℝ) ^ 45 * (N * 32) ≤ 2⁻¹ ^ 45 * (N * (M + 32)) := mul_le_mul_of_nonneg_left hNM (by positivity)
      have e6 : (2⁻¹ : ℝ) ^ 45 * (N * 32) = N * 2⁻¹ ^ 49 * 512 := by ring
      have e7 : 0 ≤ N * (2⁻¹ : ℝ) ^ 49 := by positivity
      linarith
    have e8 : (2⁻¹ : ℝ) ^ 36 * 3 ≤ 2⁻¹ ^ 34 := by norm_num
    have e9 : 0 ≤ δ := by
      have : 0 ≤ N * (2⁻¹ : ℝ) ^ 49 := by positivity
      linarith
    linarith
  have e10 : (4 * δ + (N * 2⁻¹ ^ 49 + (2⁻¹ : ℝ) ^ 36) * 3) * p = 4 * δ * p + (N * 2⁻¹ ^ 49 + (2⁻¹ : ℝ) ^ 36) * (3 * p) := by ring
  linarith

end

/-- The machine of C122-C124 with correctly rounded logarithms. -/
noncomputable def demoLog : ArithLog where
  toArith := demoArith
  log x := round53 (Real.log x)
  log1p x := round53 (Real.log (1 + x))
  ln2 := round53 (Real.log 2)

theorem demo_doubleLog : IsDoubleLog demoLog where
  double := demo_double
  log_near x hx := by
    have h := round53_near (Real.log x)
    have h0 := Real.log_nonneg hx
    rw [abs_of_nonneg h0] at h
    refine h.trans (mul_le_mul_of_nonneg_right ?_ h0)
    norm_num
  log1p_zero := by
    show round53 (Real.log (1 + 0)) = 0
    rw [add_zero, Real.log_one, round53_zero]
  log1p_near x h0 h1 := by
    have h := round53_near (Real.log (1 + x))
    have h2 : 0 ≤ Real.log (1 + x) := Real.log_nonneg (by linarith)
    rw [abs_of_nonneg h2] at h
    have h3 : (2⁻¹ : ℝ) ^ 53 * Real.log (1 + x) ≤ 2⁻¹ ^ 52 * Real.log (1 + x) := mul_le_mul_of_nonneg_right (by norm_num) h2
    have h4 : (0 : ℝ) ≤ 2⁻¹ ^ 1074 := by positivity
    exact h.trans (h3.trans (le_add_of_nonneg_right h4))
  ln2_near := by
    have h := round53_near (Real.log 2)
    have h2 : 0 ≤ Real.log 2 := Real.log_nonneg (by norm_num)
    rw [abs_of_nonneg h2] at h
    have h3 : (2⁻¹ : ℝ) ^ 53 * Real.log 2 ≤ 2⁻¹ ^ 53 * 1 := mul_le_mul_of_nonneg_left (by linarith [Real.log_two_lt_d9]) (by positivity)
    exact h.trans (by rw [mul_one] at h3; exact h3)

theorem exampleStages_bounded : BoundedHistory exampleStages 2 3 where
  rect := exampleStages_rect
  few := by simp [exampleStages]
  beta := by intro s hs; simp [exampleStages] at hs; rcases hs with rfl | rfl <;> norm_num
  logz := by intro s hs; simp [exampleStages] at hs; rcases hs with rfl | rfl <;> norm_num
  logl := by
    intro s hs l hl
    simp [exampleStages] at hs
    rcases hs with rfl | rfl <;> simp at hl <;> rcases hl with rfl | rfl <;> norm_num

/-- Two iterations of two particles: the evidence at the posterior is computed to within `10⁻¹¹`. -/
example : ∃ (logw : List ℝ) (z : ℝ), computeLogwLogzD demoLog (pastOf exampleStages : Cols 1 Unit List) (fin 1) = .ok (logw.map fin, fin z) ∧
    |z - Real.log (totalWeight exampleStages 1 / 4)| ≤ 1 / 10 ^ 11 := by
  obtain ⟨_, logw, z, h1, -, h3, -⟩ := C125_logw demo_doubleLog (pastOf exampleStages : Cols 1 Unit List) exampleStages_bounded (pastOf_holds _)
    zero_le_one le_rfl
  refine ⟨logw, z, h1, ?_⟩
  have : ((allLogl exampleStages).length : ℝ) = 4 := by simp [allLogl, exampleStages]
  rw [this] at h3
  refine h3.trans ?_
  norm_num

end Poco
