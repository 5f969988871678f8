import Verif.Lemmas.DoubleEvidence

/-! # C154: the evidence from flow draws and its error bar in double precision -/

namespace Poco
open F Spec

section
variable {A : ArithLog}

/-- A computed log-weight. -/
noncomputable def logwD (A : ArithLog) (q : FlowDraw) : F := A.round (A.round (A.round (q.logl + fin q.logp) + fin q.logdetj) - fin q.logq)

theorem evidenceOfD_map (qs : List FlowDraw) :
    evidenceOfD A (qs.map (·.logl)) (qs.map fun q => fin q.logp) (qs.map fun q => fin q.logdetj) (qs.map fun q => fin q.logq) =
      (qs.map (logwD A), A.round (A.lse (qs.map (logwD A)) - A.logF (ofNat qs.length))) := by
  have h : List.zipWith (fun a b => A.round (a - b)) (List.zipWith (fun a b => A.round (a + b)) (List.zipWith (fun a b => A.round (a + b))
      (qs.map (·.logl)) (qs.map fun q => fin q.logp)) (qs.map fun q => fin q.logdetj)) (qs.map fun q => fin q.logq) = qs.map (logwD A) := by
    induction qs with
    | nil => rfl
    | cons q qs ih => simp only [List.map_cons, List.zipWith_cons_cons, ih]; rfl
  unfold evidenceOfD
  dsimp only
  rw [h, List.length_map]

theorem logwD_near (hA : IsDoubleLog A) {q : FlowDraw} {M : ℝ} (h : q.Within M) :
    NearLog (uu * (11 * M + 5)) (5 * M + 1) (logwD A q) q.weight := by
  have hd := hA.double
  have hu := uu_pos
  have he := eta_le_unit
  have hus : uu ≤ 1 / 1000 := by unfold uu; norm_num
  rcases h.logl with hl | ⟨l, hl, hlM⟩
  · left
    unfold logwD FlowDraw.weight
    rw [hl]
    exact ⟨rfl, rfl⟩
  · right
    have hM0 : 0 ≤ M := (abs_nonneg l).trans hlM
    have huM : uu * M ≤ 1 / 1000 * M := mul_le_mul_of_nonneg_right hus hM0
    set a := A.rnd (l + q.logp) with ha
    set b := A.rnd (a + q.logdetj) with hb
    set c := A.rnd (b - q.logq) with hc
    refine ⟨c, l + q.logp + q.logdetj - q.logq, ?_, ?_, ?_⟩
    · unfold logwD
      rw [hl]
      rfl
    · unfold FlowDraw.weight
      rw [hl]
      simp only [← Real.exp_add, ← Real.exp_sub]
    have e1 : |a - (l + q.logp)| ≤ uu * (2 * M) + uu := by
      have h1 := hd.err (l + q.logp)
      have h2 := mul_le_mul_of_nonneg_left ((abs_add_le l q.logp).trans (add_le_add hlM h.logp)) hu.le
      rw [← two_mul] at h2
      linarith
    have ea : |a| ≤ 3 * M + 1 := by
      calc |a| = |(a - (l + q.logp)) + (l + q.logp)| := by ring_nf
        _ ≤ |a - (l + q.logp)| + (|l| + |q.logp|) := (abs_add_le _ _).trans (by gcongr; exact abs_add_le _ _)
        _ ≤ _ := by linarith [h.logp]
    have e2 : |b - (a + q.logdetj)| ≤ uu * (4 * M + 1) + uu := by
      have h1 := hd.err (a + q.logdetj)
      have h2 := mul_le_mul_of_nonneg_left ((abs_add_le a q.logdetj).trans (add_le_add ea h.logdetj)) hu.le
      linarith
    have e12 : |b - (l + q.logp + q.logdetj)| ≤ uu * (6 * M + 3) := by
      calc |b - (l + q.logp + q.logdetj)| = |(b - (a + q.logdetj)) + (a - (l + q.logp))| := by ring_nf
        _ ≤ _ := abs_add_le _ _
        _ ≤ _ := by linarith
    have eb : |b - q.logq| ≤ 4 * M + 1 / 100 * M + 1 / 2 := by
      calc |b - q.logq| = |(b - (l + q.logp + q.logdetj)) + (l + q.logp + q.logdetj - q.logq)| := by ring_nf
        _ ≤ |b - (l + q.logp + q.logdetj)| + |l + q.logp + q.logdetj - q.logq| := abs_add_le _ _
        _ ≤ |b - (l + q.logp + q.logdetj)| + (|l| + |q.logp| + |q.logdetj| + |q.logq|) := by
          gcongr
          exact (abs_sub _ _).trans (by gcongr; exact (abs_add_le _ _).trans (by gcongr; exact abs_add_le _ _))
        _ ≤ _ := by linarith [h.logp, h.logdetj, h.logq]
    have e3 : |c - (b - q.logq)| ≤ uu * (5 * M + 1 / 2) + uu := by
      have h1 := hd.err (b - q.logq)
      have h2 := mul_le_mul_of_nonneg_left (eb.trans (by linarith : _ ≤ 5 * M + 1 / 2)) hu.le
      linarith
    refine ⟨?_, ?_⟩
    · calc |c - (l + q.logp + q.logdetj - q.logq)| = |(c - (b - q.logq)) + (b - (l + q.logp + q.logdetj))| := by ring_nf
        _ ≤ _ := abs_add_le _ _
        _ ≤ _ := by linarith
    · have e4 : |b| ≤ 4 * M + 1 / 4 := by
        calc |b| = |(b - (l + q.logp + q.logdetj)) + (l + q.logp + q.logdetj)| := by ring_nf
          _ ≤ |b - (l + q.logp + q.logdetj)| + (|l| + |q.logp| + |q.logdetj|) := (abs_add_le _ _).trans (by
            gcongr
            exact (abs_add_le _ _).trans (by gcongr; exact abs_add_le _ _))
          _ ≤ _ := by linarith [h.logp, h.logdetj]
      calc |c| = |(c - (b - q.logq)) + (b - q.logq)| := by ring_nf
        _ ≤ _ := abs_add_le _ _
        _ ≤ _ := by linarith

theorem FlowDraw.weight_nonneg (q : FlowDraw) : 0 ≤ q.weight := by
  unfold Spec.FlowDraw.weight
  split
  · positivity
  · exact le_rfl

theorem Spec.FlowDraw.Within.weight_le {q : FlowDraw} {M : ℝ} (h : q.Within M) : q.weight ≤ Real.exp (4 * M) := by
  rcases h.logl with hl | ⟨l, hl, hlM⟩
  · unfold Spec.FlowDraw.weight
    rw [hl]
    exact (Real.exp_pos _).le
  · unfold Spec.FlowDraw.weight
    rw [hl]
    simp only [← Real.exp_add, ← Real.exp_sub]
    apply Real.exp_le_exp.mpr
    linarith [(abs_le.mp hlM).2, (abs_le.mp h.logp).2, (abs_le.mp h.logdetj).2, (abs_le.mp h.logq).1]

theorem Spec.FlowDraw.Within.weight_ge {q : FlowDraw} {M : ℝ} (h : q.Within M) (h0 : q.weight ≠ 0) : Real.exp (-(4 * M)) ≤ q.weight := by
  rcases h.logl with hl | ⟨l, hl, hlM⟩
  · unfold Spec.FlowDraw.weight at h0
    rw [hl] at h0
    exact absurd rfl h0
  · unfold Spec.FlowDraw.weight
    rw [hl]
    simp only [← Real.exp_add, ← Real.exp_sub]
    apply Real.exp_le_exp.mpr
    linarith [(abs_le.mp hlM).1, (abs_le.mp h.logp).1, (abs_le.mp h.logdetj).1, (abs_le.mp h.logq).2]

/-- The estimate from any selection of draws. -/
theorem logmean_draws (hA : IsDoubleLog A) {M : ℝ} (hM0 : 0 ≤ M) (qs : List FlowDraw) (hM : ∀ q ∈ qs, q.Within M) (hf : qs.length ≤ 2 ^ 40)
    (hs : ∃ q ∈ qs, q.weight ≠ 0) :
    ∃ r, A.round (A.lse (qs.map (logwD A)) - A.logF (ofNat qs.length)) = fin r ∧
      |r - Real.log ((qs.map FlowDraw.weight).sum / qs.length)| ≤ qs.length * 2⁻¹ ^ 47 * (M + 16) := by
  have hu := uu_pos
  have h2 : List.Forall₂ (NearLog (uu * (11 * M + 5)) (5 * M + 1)) (qs.map (logwD A)) (qs.map FlowDraw.weight) := by
    rw [List.forall₂_map_left_iff, List.forall₂_map_right_iff, List.forall₂_same]
    exact fun q hq => logwD_near hA (hM q hq)
  obtain ⟨q, hq, hq0⟩ := hs
  have hpos : 0 < (qs.map FlowDraw.weight).sum := by
    refine lt_of_lt_of_le (lt_of_le_of_ne (FlowDraw.weight_nonneg q) (Ne.symm hq0)) (List.single_le_sum ?_ _ (List.mem_map.mpr ⟨q, hq, rfl⟩))
    intro x hx
    obtain ⟨y, -, rfl⟩ := List.mem_map.mp hx
    exact FlowDraw.weight_nonneg y
  obtain ⟨r, h3, h4⟩ := logmean_close hA (by positivity) (by positivity) h2 hpos (by rw [List.length_map]; exact hf)
  rw [List.length_map] at h3 h4
  refine ⟨r, h3, h4.trans ?_⟩
  have hn : (1 : ℝ) ≤ qs.length := by exact_mod_cast List.length_pos_of_mem hq
  have h47 : (2⁻¹ : ℝ) ^ 47 = 64 * uu := by unfold uu; norm_num
  rw [h47]
  have h5 : 1 * (uu * (11 * M + 5)) ≤ qs.length * (uu * (11 * M + 5)) := mul_le_mul_of_nonneg_right hn (by positivity)
  have h6 : (qs.length : ℝ) * (uu * (61 * M + 392)) ≤ qs.length * (uu * (64 * M + 1024)) := by gcongr <;> linarith
  calc _ ≤ (qs.length : ℝ) * (uu * (61 * M + 392)) := by linarith
    _ ≤ _ := h6
    _ = _ := by ring

/-- C154: the log-evidence computed from draws of the flow (at most `2^40` of them, numbers of absolute value at most `M`, log-likelihoods possibly `-inf` but
not all of them), in double precision, is the logarithm of the mean importance weight up to an absolute error of `n·2⁻⁴⁷·(M + 16)`. -/
theorem C154_evidence (hA : IsDoubleLog A) (qs : List FlowDraw) (M : ℝ) (hM : ∀ q ∈ qs, q.Within M) (hf : qs.length ≤ 2 ^ 40)
    (hs : ∃ q ∈ qs, q.logl ≠ ninf) :
    ∃ lw r, evidenceOfD A (qs.map (·.logl)) (qs.map fun q => fin q.logp) (qs.map fun q => fin q.logdetj) (qs.map fun q => fin q.logq) = (lw, fin r) ∧
      lw.length = qs.length ∧
      |r - Real.log ((qs.map FlowDraw.weight).sum / qs.length)| ≤ qs.length * 2⁻¹ ^ 47 * (M + 16) := by
  obtain ⟨q, hq, hl⟩ := hs
  have hM0 : 0 ≤ M := (abs_nonneg _).trans (hM q hq).logp
  obtain ⟨r, h1, h2⟩ := logmean_draws hA hM0 qs hM hf ⟨q, hq, by
    rcases (hM q hq).logl with h | ⟨l, h, -⟩
    · exact absurd h hl
    · unfold Spec.FlowDraw.weight
      rw [h]
      positivity⟩
  refine ⟨qs.map (logwD A), r, ?_, by simp, h2⟩
  rw [evidenceOfD_map, h1]

/-- C154: the error bar computed from bootstrap replicates in double precision is the standard deviation of the replicates' exact log-evidences up to an absolute
error of `(n + R)·2⁻⁴⁴·(M + 16)` for `n` draws and `R` replicates, if no replicate consists of zero weights only. -/
theorem C154_error (hA : IsDoubleLog A) (qs : List FlowDraw) (M : ℝ) (hM : ∀ q ∈ qs, q.Within M) (hf : qs.length ≤ 2 ^ 40) (n : ℕ) (hn : n ≤ 2 ^ 40)
    (boot : ℕ → ℕ → ℕ) (hb : ∀ r, ∀ k < qs.length, boot r k < qs.length)
    (hz : ∀ r < Max.max n 1000, ¬ AllZero (qs.map FlowDraw.weight) (boot r)) :
    ∃ s, 0 ≤ s ∧ bootstrapErrD A (evidenceOfD A (qs.map (·.logl)) (qs.map fun q => fin q.logp) (qs.map fun q => fin q.logdetj)
        (qs.map fun q => fin q.logq)).1 n boot = fin s ∧
      |s - popStd ((List.range (Max.max n 1000)).map fun r => Real.log (bootMean (qs.map FlowDraw.weight) (boot r)))| ≤
        (qs.length + (Max.max n 1000 : ℕ)) * 2⁻¹ ^ 44 * (M + 16) := by
  rw [evidenceOfD_map]
  dsimp only
  set R := Max.max n 1000 with hR
  have hR1 : 1000 ≤ R := le_max_right _ _
  have hRf : R ≤ 2 ^ 40 := max_le hn (by norm_num)
  have hne : 0 < qs.length := by
    by_contra hc
    have h0 := hz 0 (by omega)
    apply h0
    intro k hk
    rw [List.length_map] at hk
    omega
  have hM0 : 0 ≤ M := (abs_nonneg _).trans (hM _ (List.getElem_mem hne)).logp
  -- the draws of a replicate
  set sel : ℕ → List FlowDraw := fun r => (List.range qs.length).map fun k => qs.getD (boot r k) ⟨ninf, 0, 0, 0⟩ with hsel
  have hget : ∀ r k (hk : k < qs.length), qs.getD (boot r k) ⟨ninf, 0, 0, 0⟩ = qs[boot r k]'(hb r k hk) := by
    intro r k hk
    rw [List.getD_eq_getElem?_getD, List.getElem?_eq_getElem (hb r k hk)]
    rfl
  have hsl : ∀ r, (sel r).length = qs.length := fun r => by simp [hsel]
  have hsm : ∀ r, ∀ q ∈ sel r, q.Within M := by
    intro r q hq
    obtain ⟨k, hk, rfl⟩ := List.mem_map.mp hq
    have hk' := List.mem_range.mp hk
    rw [hget r k hk']
    exact hM _ (List.getElem_mem _)
  have hsw : ∀ r, (sel r).map FlowDraw.weight = (List.range qs.length).map fun k => (qs.map FlowDraw.weight).getD (boot r k) 0 := by
    intro r
    rw [hsel, List.map_map]
    apply List.map_congr_left
    intro k hk
    have hk' := List.mem_range.mp hk
    simp only [Function.comp]
    rw [hget r k hk', List.getD_eq_getElem?_getD, List.getElem?_map, List.getElem?_eq_getElem (hb r k hk')]
    rfl
  have hbm : ∀ r, bootMean (qs.map FlowDraw.weight) (boot r) = ((sel r).map FlowDraw.weight).sum / qs.length := by
    intro r
    unfold bootMean
    rw [List.length_map, hsw]
  have hsz : ∀ r < R, ∃ q ∈ sel r, q.weight ≠ 0 := by
    intro r hr
    have := hz r hr
    unfold AllZero at this
    push Not at this
    obtain ⟨k, hk, h⟩ := this
    rw [List.length_map] at hk
    refine ⟨_, List.mem_map.mpr ⟨k, List.mem_range.mpr hk, rfl⟩, ?_⟩
    rw [hget r k hk]
    rw [List.getD_eq_getElem?_getD, List.getElem?_map, List.getElem?_eq_getElem (hb r k hk)] at h
    exact h
  have hval : ∀ r : ℕ, ∃ v : ℝ, r < R →
      A.round (A.lse ((sel r).map (logwD A)) - A.logF (ofNat qs.length)) = fin v ∧
        |v - Real.log (bootMean (qs.map FlowDraw.weight) (boot r))| ≤ qs.length * 2⁻¹ ^ 47 * (M + 16) := by
    intro r
    by_cases hr : r < R
    · obtain ⟨v, h1, h2⟩ := logmean_draws hA hM0 (sel r) (hsm r) (by rw [hsl]; exact hf) (hsz r hr)
      rw [hsl] at h1 h2
      exact ⟨v, fun _ => ⟨h1, by rw [hbm]; exact h2⟩⟩
    · exact ⟨0, fun h => absurd h hr⟩
  choose v hv using hval
  have hn1 : (1 : ℝ) ≤ qs.length := by exact_mod_cast hne
  have hf' : (qs.length : ℝ) ≤ 2 ^ 40 := by exact_mod_cast hf
  set ε := (qs.length : ℝ) * 2⁻¹ ^ 47 * (M + 16) with hε
  have hε0 : 0 ≤ ε := by positivity
  have hε1 : ε ≤ 1 / 100 * (M + 16) := by
    refine mul_le_mul_of_nonneg_right ?_ (by positivity)
    calc (qs.length : ℝ) * 2⁻¹ ^ 47 ≤ 2 ^ 40 * 2⁻¹ ^ 47 := mul_le_mul_of_nonneg_right hf' (by positivity)
      _ ≤ _ := by norm_num
  have hlog : Real.log qs.length ≤ 28 := by
    have h1 : Real.log qs.length ≤ Real.log (2 ^ 40) := Real.log_le_log (by linarith) hf'
    rw [Real.log_pow] at h1
    have := Real.log_two_lt_d9
    norm_num at h1
    linarith
  have hy : ∀ r < R, |Real.log (bootMean (qs.map FlowDraw.weight) (boot r))| ≤ 4 * M + 28 := by
    intro r hr
    obtain ⟨q, hq, hq0⟩ := hsz r hr
    have hlo : Real.exp (-(4 * M)) / qs.length ≤ bootMean (qs.map FlowDraw.weight) (boot r) := by
      rw [hbm]
      apply div_le_div_of_nonneg_right _ (by linarith)
      refine ((hsm r q hq).weight_ge hq0).trans (List.single_le_sum ?_ _ (List.mem_map.mpr ⟨q, hq, rfl⟩))
      intro x hx
      obtain ⟨y, -, rfl⟩ := List.mem_map.mp hx
      exact FlowDraw.weight_nonneg y
    have hhi : bootMean (qs.map FlowDraw.weight) (boot r) ≤ Real.exp (4 * M) := by
      rw [hbm, div_le_iff₀ (by linarith)]
      have := List.sum_le_card_nsmul ((sel r).map FlowDraw.weight) (Real.exp (4 * M)) fun x hx => by
        obtain ⟨y, hy, rfl⟩ := List.mem_map.mp hx
        exact (hsm r y hy).weight_le
      rw [List.length_map, hsl, nsmul_eq_mul] at this
      linarith
    have hpos : 0 < Real.exp (-(4 * M)) / qs.length := by positivity
    have h1 := Real.log_le_log hpos hlo
    have h2 := Real.log_le_log (lt_of_lt_of_le hpos hlo) hhi
    rw [Real.log_div (Real.exp_pos _).ne' (by linarith), Real.log_exp] at h1
    rw [Real.log_exp] at h2
    rw [abs_le]; constructor <;> linarith
  have hvb : ∀ x ∈ (List.range R).map v, |x| ≤ 5 * M + 32 := by
    intro x hx
    obtain ⟨r, hr, rfl⟩ := List.mem_map.mp hx
    have hr' := List.mem_range.mp hr
    calc |v r| = |(v r - Real.log (bootMean (qs.map FlowDraw.weight) (boot r))) + Real.log (bootMean (qs.map FlowDraw.weight) (boot r))| := by ring_nf
      _ ≤ _ := abs_add_le _ _
      _ ≤ _ := by linarith [(hv r hr').2, hy r hr']
  obtain ⟨s, s0, s1, s2⟩ := stdD_close hA.double (v := (List.range R).map v) (by
    intro hc
    have := congrArg List.length hc
    simp at this
    omega) (by simpa using hRf) hvb
  have s3 := popStd_shift hε0 (l := (List.range R).map v) (m := (List.range R).map fun r => Real.log (bootMean (qs.map FlowDraw.weight) (boot r))) (by
    rw [List.forall₂_map_left_iff, List.forall₂_map_right_iff, List.forall₂_same]
    exact fun r hr => (hv r (List.mem_range.mp hr)).2)
  refine ⟨s, s0, ?_, ?_⟩
  · rw [← s1]
    unfold bootstrapErrD
    rw [← hR, List.map_map]
    congr 1
    apply List.map_congr_left
    intro r hr
    show _ = fin (v r)
    rw [← (hv r (List.mem_range.mp hr)).1, List.length_map, hsel, List.map_map]
    congr 3
    apply List.map_congr_left
    intro k hk
    have hk' := List.mem_range.mp hk
    simp only [Function.comp]
    rw [hget r k hk', Nat.mod_eq_of_lt (hb r k hk'), List.getD_eq_getElem?_getD, List.getElem?_map, List.getElem?_eq_getElem (hb r k hk')]
    rfl
  · rw [List.length_map, List.length_range] at s2
    have hR1' : (1000 : ℝ) ≤ R := by exact_mod_cast hR1
    have t1 : (2⁻¹ : ℝ) ^ 528 ≤ 2⁻¹ ^ 47 := pow_le_pow_of_le_one (by norm_num) (by norm_num) (by norm_num)
    have t2 : (2⁻¹ : ℝ) ^ 44 = 8 * 2⁻¹ ^ 47 := by norm_num
    have t3 : (0 : ℝ) < 2⁻¹ ^ 47 := by positivity
    rw [t2]
    generalize (2⁻¹ : ℝ) ^ 47 = w at *
    generalize (2⁻¹ : ℝ) ^ 528 = z at *
    have t4 : w * 1 ≤ w * R := mul_le_mul_of_nonneg_left (by linarith) t3.le
    have t5 : 0 ≤ w * R * M := by positivity
    have t6 : 0 ≤ w * qs.length * M := by positivity
    have t7 : 0 ≤ w * qs.length := by positivity
    calc |s - popStd ((List.range R).map fun r => Real.log (bootMean (qs.map FlowDraw.weight) (boot r)))|
        = |(s - popStd ((List.range R).map v)) + (popStd ((List.range R).map v) -
            popStd ((List.range R).map fun r => Real.log (bootMean (qs.map FlowDraw.weight) (boot r))))| := by ring_nf
      _ ≤ _ := abs_add_le _ _
      _ ≤ (R * w * (5 * M + 32) + z) + 2 * ε := by linarith
      _ ≤ _ := by rw [hε]; linarith

end

/-- C154: the centre and the scale which the reparameterisation learns from a coordinate of at most `2^40` samples of absolute value at most `V` are, in double
precision, their mean and standard deviation up to an absolute error of `n·2⁻⁴⁷·V + 2⁻⁵²⁸`. -/
theorem C154_scale {A : Arith} (hA : IsDouble A) (v : List ℝ) (hne : v ≠ []) (hf : v.length ≤ 2 ^ 40) (V : ℝ) (hV : ∀ x ∈ v, |x| ≤ V) :
    ∃ m s, meanD A (v.map fin) = fin m ∧ stdD A (v.map fin) = fin s ∧ 0 ≤ s ∧
      |m - v.sum / v.length| ≤ v.length * 2⁻¹ ^ 47 * V + 2⁻¹ ^ 528 ∧ |s - popStd v| ≤ v.length * 2⁻¹ ^ 47 * V + 2⁻¹ ^ 528 := by
  have hu := uu_pos
  obtain ⟨s, s0, s1, s2⟩ := stdD_close hA hne hf hV
  obtain ⟨m1, m2⟩ := meanD_close hA hne hf
  refine ⟨_, s, m1, s1, s0, m2.trans ?_, s2⟩
  have hV0 : 0 ≤ V := by
    obtain ⟨x, hx⟩ := List.exists_mem_of_ne_nil v hne
    exact (abs_nonneg x).trans (hV x hx)
  have h1 := mul_le_mul_of_nonneg_left (abs_sum_div_le hne hV) (by positivity : 0 ≤ 4 * uu * (v.length : ℝ))
  have h2 : 4 * eta ≤ 2⁻¹ ^ 528 := by
    have : 4 * eta = 2⁻¹ ^ 1073 := by
      unfold eta
      rw [show (1075 : ℕ) = 2 + 1073 from rfl, pow_add, ← mul_assoc]
      have : (4 : ℝ) * 2⁻¹ ^ 2 = 1 := by norm_num
      rw [this, one_mul]
    rw [this]
    exact pow_le_pow_of_le_one (by norm_num) (by norm_num) (by norm_num)
  have h47 : (2⁻¹ : ℝ) ^ 47 = 64 * uu := by unfold uu; norm_num
  rw [h47]
  generalize (2⁻¹ : ℝ) ^ 528 = z at *
  have h3 : 0 ≤ uu * v.length * V := by positivity
  linarith

example : ∃ m s, meanD demoArith ([1, 2, 4].map fin) = fin m ∧ stdD demoArith ([1, 2, 4].map fin) = fin s ∧ |m - 7 / 3| ≤ 3 * 2⁻¹ ^ 47 * 4 + 2⁻¹ ^ 528 := by
  obtain ⟨m, s, h1, h2, -, h3, -⟩ := C154_scale demo_double [1, 2, 4] (by simp) (by norm_num) 4 (by intro x hx; fin_cases hx <;> norm_num)
  refine ⟨m, s, h1, h2, ?_⟩
  have e : ([1, 2, 4] : List ℝ).sum = 7 := by norm_num
  rw [e] at h3
  exact h3

/-- A non-trivial case: three draws, one of which the likelihood rules out. -/
example : ∃ lw r, evidenceOfD demoLog [fin (-3), ninf, fin (-4)] [fin (-1), fin (-1), fin (-1)] [fin 0, fin 0, fin 1] [fin (-2), fin (-2), fin (-3)] = (lw, fin r) ∧
    lw.length = 3 ∧ |r - Real.log ((Real.exp (-3) * Real.exp (-1) * Real.exp 0 / Real.exp (-2) + (0 +
      Real.exp (-4) * Real.exp (-1) * Real.exp 1 / Real.exp (-3))) / 3)| ≤ 3 * 2⁻¹ ^ 47 * (4 + 16) := by
  have h := C154_evidence demo_doubleLog [⟨fin (-3), -1, 0, -2⟩, ⟨ninf, -1, 0, -2⟩, ⟨fin (-4), -1, 1, -3⟩] 4 (by
    intro q hq
    fin_cases hq
    · exact ⟨.inr ⟨_, rfl, by norm_num⟩, by norm_num, by norm_num, by norm_num⟩
    · exact ⟨.inl rfl, by norm_num, by norm_num, by norm_num⟩
    · exact ⟨.inr ⟨_, rfl, by norm_num⟩, by norm_num, by norm_num, by norm_num⟩) (by norm_num) ⟨_, List.mem_cons_self, by simp⟩
  simpa [Spec.FlowDraw.weight] using h

example : ∃ s, 0 ≤ s ∧ bootstrapErrD demoLog (evidenceOfD demoLog [fin (-3), fin (-4)] [fin (-1), fin (-1)] [fin 0, fin 1] [fin (-2), fin (-3)]).1 256
    (fun r k => (r + k) % 2) = fin s := by
  obtain ⟨s, h0, h1, -⟩ := C154_error demo_doubleLog [⟨fin (-3), -1, 0, -2⟩, ⟨fin (-4), -1, 1, -3⟩] 4 (by
    intro q hq
    fin_cases hq
    · exact ⟨.inr ⟨_, rfl, by norm_num⟩, by norm_num, by norm_num, by norm_num⟩
    · exact ⟨.inr ⟨_, rfl, by norm_num⟩, by norm_num, by norm_num, by norm_num⟩) (by norm_num) 256 (by norm_num) (fun r k => (r + k) % 2)
    (fun r k _ => Nat.mod_lt _ (by norm_num)) (by
      intro r _ hc
      have h := hc 0 (by simp)
      rcases Nat.mod_two_eq_zero_or_one r with h2 | h2 <;> simp [h2, Spec.FlowDraw.weight] at h)
  exact ⟨s, h0, h1⟩

end Poco
