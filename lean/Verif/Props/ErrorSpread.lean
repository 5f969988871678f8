import Mathlib.Probability.Moments.Variance
import Mathlib.Algebra.BigOperators.Ring.Finset
import Verif.Props.FlowEvidence

/-! C155: the error bar of the evidence is its standard error. -/

namespace Poco.Spec

/-- The average of `f` over equally likely outcomes. -/
noncomputable def drawMean {T : Type*} [Fintype T] (f : T → ℝ) : ℝ := (∑ t, f t) / Fintype.card T

/-- The index draws of a bootstrap, as a function on the natural numbers. -/
def indices {R n : ℕ} (b : Fin R → Fin n → Fin n) : ℕ → ℕ → ℕ := fun r k => if h : r < R ∧ k < n then b ⟨r, h.1⟩ ⟨k, h.2⟩ else 0

end Poco.Spec

namespace Poco
open F Spec MeasureTheory ProbabilityTheory

section average
variable {ι α : Type*} [Fintype ι] [Fintype α]

theorem average_mul_prod [DecidableEq ι] (f g : α → ℝ) (i j : ι) :
    drawMean (fun b : ι → α => f (b i) * g (b j)) =
      ∏ k : ι, drawMean fun a => (if k = i then f a else 1) * (if k = j then g a else 1) := by
  unfold drawMean
  simp only [Finset.prod_div_distrib]
  rw [Finset.prod_univ_sum, Fintype.piFinset_univ]
  congr 1
  · apply Finset.sum_congr rfl
    intro b _
    rw [Finset.prod_mul_distrib, Finset.prod_ite_eq' Finset.univ i, Finset.prod_ite_eq' Finset.univ j]
    simp
  · rw [Finset.prod_const, Finset.card_univ, Fintype.card_fun]
    push_cast
    rfl

theorem average_one [Nonempty α] : drawMean (fun _ : α => (1 : ℝ)) = 1 := by
  unfold drawMean
  rw [Finset.sum_const, Finset.card_univ, nsmul_eq_mul, mul_one]
  exact div_self (by exact_mod_cast Fintype.card_ne_zero)

theorem average_coord [DecidableEq ι] [Nonempty α] (f : α → ℝ) (i : ι) : drawMean (fun b : ι → α => f (b i)) = drawMean f := by
  have h := average_mul_prod f (fun _ => 1) i i
  simp only [mul_one, ite_self] at h
  rw [h, Finset.prod_eq_single i]
  · simp
  · intro k _ hk
    simp only [if_neg hk]
    exact average_one
  · simp

theorem average_pair [DecidableEq ι] [Nonempty α] (f g : α → ℝ) {i j : ι} (h : i ≠ j) :
    drawMean (fun b : ι → α => f (b i) * g (b j)) = drawMean f * drawMean g := by
  rw [average_mul_prod, Finset.prod_eq_mul i j h]
  · simp [h, h.symm]
  · intro k _ hk
    simp only [if_neg hk.1, if_neg hk.2, mul_one]
    exact average_one
  · simp
  · simp

theorem average_sum {κ : Type*} (s : Finset κ) (f : κ → α → ℝ) : drawMean (fun a => ∑ k ∈ s, f k a) = ∑ k ∈ s, drawMean (f k) := by
  unfold drawMean
  rw [Finset.sum_comm, Finset.sum_div]

theorem average_sub (f g : α → ℝ) : drawMean (fun a => f a - g a) = drawMean f - drawMean g := by
  unfold drawMean
  rw [Finset.sum_sub_distrib, sub_div]

theorem average_div (f : α → ℝ) (c : ℝ) : drawMean (fun a => f a / c) = drawMean f / c := by
  unfold drawMean
  rw [← Finset.sum_div, div_right_comm]

/-- The variance over equally likely outcomes. -/
noncomputable def variance' (f : α → ℝ) : ℝ := drawMean (fun a => f a ^ 2) - drawMean f ^ 2

/-- The second moment of the mean of independent draws. -/
theorem average_mean_sq [DecidableEq ι] [Nonempty α] [Nonempty ι] (f : α → ℝ) :
    drawMean (fun b : ι → α => (drawMean fun i => f (b i)) ^ 2) = drawMean f ^ 2 + variance' f / Fintype.card ι := by
  have hN : (Fintype.card ι : ℝ) ≠ 0 := by exact_mod_cast Fintype.card_ne_zero
  have h1 : ∀ b : ι → α, (drawMean fun i => f (b i)) ^ 2 = (∑ i, ∑ j, f (b i) * f (b j)) / (Fintype.card ι : ℝ) ^ 2 := by
    intro b
    unfold drawMean
    rw [div_pow, pow_two (∑ i, f (b i)), Finset.sum_mul_sum]
  simp only [h1]
  rw [average_div, average_sum]
  have h2 : ∀ i : ι, drawMean (fun b : ι → α => ∑ j, f (b i) * f (b j)) = drawMean (fun a => f a ^ 2) + ((Fintype.card ι : ℝ) - 1) * drawMean f ^ 2 := by
    intro i
    rw [average_sum, ← Finset.add_sum_erase _ _ (Finset.mem_univ i)]
    congr 1
    · have := average_coord (ι := ι) (fun a => f a ^ 2) i
      rw [← this]
      congr 1
      funext b
      ring
    · have : ∀ j ∈ Finset.univ.erase i, drawMean (fun b : ι → α => f (b i) * f (b j)) = drawMean f ^ 2 := by
        intro j hj
        rw [average_pair f f (Finset.ne_of_mem_erase hj).symm, pow_two]
      rw [Finset.sum_congr rfl this, Finset.sum_const, Finset.card_erase_of_mem (Finset.mem_univ i), Finset.card_univ, nsmul_eq_mul,
        Nat.cast_sub (Fintype.card_pos), Nat.cast_one]
  rw [Finset.sum_congr rfl fun i _ => h2 i, Finset.sum_const, Finset.card_univ, nsmul_eq_mul]
  unfold variance'
  field_simp
  ring

/-- The mean of independent draws has the variance of a draw divided by their number. -/
theorem variance_mean [DecidableEq ι] [Nonempty α] [Nonempty ι] (f : α → ℝ) :
    drawMean (fun b : ι → α => drawMean fun i => f (b i)) = drawMean f ∧
      variance' (fun b : ι → α => drawMean fun i => f (b i)) = variance' f / Fintype.card ι := by
  have hN : (Fintype.card ι : ℝ) ≠ 0 := by exact_mod_cast Fintype.card_ne_zero
  have h1 : drawMean (fun b : ι → α => drawMean fun i => f (b i)) = drawMean f := by
    have : (fun b : ι → α => drawMean fun i => f (b i)) = fun b : ι → α => (∑ i, f (b i)) / Fintype.card ι := rfl
    rw [this, average_div, average_sum]
    simp only [average_coord]
    rw [Finset.sum_const, Finset.card_univ, nsmul_eq_mul]
    field_simp
  refine ⟨h1, ?_⟩
  unfold variance'
  rw [average_mean_sq, h1]
  unfold variance'
  ring

/-- The mean square deviation of independent draws from their own mean. -/
theorem average_variance [DecidableEq ι] [Nonempty α] [Nonempty ι] (f : α → ℝ) :
    drawMean (fun b : ι → α => variance' fun i => f (b i)) = (1 - 1 / Fintype.card ι) * variance' f := by
  have hN : (Fintype.card ι : ℝ) ≠ 0 := by exact_mod_cast Fintype.card_ne_zero
  have h0 : (fun b : ι → α => variance' fun i => f (b i)) =
      fun b : ι → α => (drawMean fun i => f (b i) ^ 2) - (drawMean fun i => f (b i)) ^ 2 := rfl
  rw [h0, average_sub, average_mean_sq, (variance_mean (ι := ι) fun a => f a ^ 2).1]
  unfold variance'
  ring

theorem variance_pairs [Nonempty α] (f : α → ℝ) : variance' f = (∑ a, ∑ a', (f a - f a') ^ 2) / (2 * (Fintype.card α : ℝ) ^ 2) := by
  have hN : (Fintype.card α : ℝ) ≠ 0 := by exact_mod_cast Fintype.card_ne_zero
  have h1 : ∀ a, ∑ a', (f a - f a') ^ 2 = Fintype.card α * f a ^ 2 - 2 * f a * (∑ a', f a') + ∑ a', f a' ^ 2 := by
    intro a
    have : ∀ a', (f a - f a') ^ 2 = f a ^ 2 - 2 * f a * f a' + f a' ^ 2 := fun a' => by ring
    simp only [this]
    rw [Finset.sum_add_distrib, Finset.sum_sub_distrib, Finset.sum_const, Finset.card_univ, nsmul_eq_mul, ← Finset.mul_sum]
  simp only [h1]
  rw [Finset.sum_add_distrib, Finset.sum_sub_distrib, ← Finset.mul_sum, ← Finset.sum_mul, ← Finset.mul_sum, Finset.sum_const, Finset.card_univ,
    nsmul_eq_mul]
  unfold variance' drawMean
  field_simp
  ring

theorem variance_le_of_lipschitz [Nonempty α] {f g : α → ℝ} {c : ℝ} (h : ∀ a a', |f a - f a'| ≤ c * |g a - g a'|) :
    variance' f ≤ c ^ 2 * variance' g := by
  rw [variance_pairs, variance_pairs, ← mul_div_assoc]
  apply div_le_div_of_nonneg_right _ (by positivity)
  rw [Finset.mul_sum]
  apply Finset.sum_le_sum
  intro a _
  rw [Finset.mul_sum]
  apply Finset.sum_le_sum
  intro a' _
  have := pow_le_pow_left₀ (abs_nonneg _) (h a a') 2
  rwa [mul_pow, sq_abs, sq_abs] at this

end average

theorem log_sub_le {a b lo : ℝ} (hlo : 0 < lo) (ha : lo ≤ a) (hb : lo ≤ b) : |Real.log a - Real.log b| ≤ lo⁻¹ * |a - b| := by
  wlog hab : b ≤ a with H
  · rw [abs_sub_comm, abs_sub_comm a]; exact H hlo hb ha (le_of_not_ge hab)
  have hb0 : 0 < b := by linarith
  have ha0 : 0 < a := by linarith
  have h1 := Real.log_le_log hb0 hab
  rw [abs_of_nonneg (by linarith), abs_of_nonneg (by linarith), ← Real.log_div ha0.ne' hb0.ne']
  have h2 := Real.log_le_sub_one_of_pos (div_pos ha0 hb0)
  have h3 : a / b - 1 = b⁻¹ * (a - b) := by field_simp
  have h4 : b⁻¹ * (a - b) ≤ lo⁻¹ * (a - b) := mul_le_mul_of_nonneg_right (inv_anti₀ hlo hb) (by linarith)
  linarith

theorem sub_le_log {a b hi : ℝ} (ha0 : 0 < a) (hb0 : 0 < b) (ha : a ≤ hi) (hb : b ≤ hi) : |a - b| ≤ hi * |Real.log a - Real.log b| := by
  wlog hab : b ≤ a with H
  · rw [abs_sub_comm, abs_sub_comm (Real.log a)]; exact H hb0 ha0 hb ha (le_of_not_ge hab)
  have h1 := Real.log_le_log hb0 hab
  rw [abs_of_nonneg (by linarith), abs_of_nonneg (by linarith)]
  have h2 := Real.log_le_sub_one_of_pos (div_pos hb0 ha0)
  rw [Real.log_div hb0.ne' ha0.ne'] at h2
  have h3 : b / a - 1 = -(a⁻¹ * (a - b)) := by field_simp; ring
  have h4 : a - b ≤ a * (Real.log a - Real.log b) := by
    have : a * (a⁻¹ * (a - b)) ≤ a * (Real.log a - Real.log b) := mul_le_mul_of_nonneg_left (by linarith) ha0.le
    rwa [mul_inv_cancel_left₀ ha0.ne'] at this
  have h5 : a * (Real.log a - Real.log b) ≤ hi * (Real.log a - Real.log b) := mul_le_mul_of_nonneg_right ha (by linarith)
  linarith

theorem popStd_sq_ofFn {n : ℕ} [NeZero n] (f : Fin n → ℝ) : popStd (List.ofFn f) ^ 2 = variance' f := by
  have hN : (n : ℝ) ≠ 0 := by exact_mod_cast NeZero.ne n
  unfold popStd
  rw [Real.sq_sqrt]
  · rw [List.map_ofFn, List.sum_ofFn, List.sum_ofFn, List.length_ofFn]
    unfold variance' drawMean
    rw [Fintype.card_fin]
    simp only [Function.comp]
    have : ∀ i, (f i - (∑ i, f i) / n) ^ 2 = f i ^ 2 - 2 * ((∑ i, f i) / n) * f i + ((∑ i, f i) / n) ^ 2 := fun i => by ring
    simp only [this]
    rw [Finset.sum_add_distrib, Finset.sum_sub_distrib, ← Finset.mul_sum, Finset.sum_const, Finset.card_univ, Fintype.card_fin, nsmul_eq_mul]
    field_simp
    ring
  · apply div_nonneg _ (Nat.cast_nonneg _)
    apply List.sum_nonneg
    intro x hx
    obtain ⟨y, -, rfl⟩ := List.mem_map.mp hx
    positivity

/-- **C155.** The error bar from `R` bootstrap replicates of draws with importance weights `W` in `[lo, hi]`, each index drawn uniformly and independently: its
mean square lies between `(1 - 1/R)·σ²/(n·hi²)` and `(1 - 1/R)·σ²/(n·lo²)`, where `σ` is the standard deviation of the weights and `n` their number.  It is,
up to the spread of the weights, the squared relative standard error of their mean. -/
theorem C155_error_bar (W : List ℝ) (hne : W ≠ []) {lo hi : ℝ} (hlo : 0 < lo) (hW : ∀ w ∈ W, lo ≤ w ∧ w ≤ hi) (nEv : ℕ) :
    ∃ err : (Fin (Max.max nEv 1000) → Fin W.length → Fin W.length) → ℝ,
      (∀ b, bootstrapErr (W.map logOf) nEv (indices b) = fin (err b)) ∧
      (1 - 1 / (Max.max nEv 1000 : ℕ)) * (popStd W ^ 2 / (W.length * hi ^ 2)) ≤ drawMean (fun b => err b ^ 2) ∧
      drawMean (fun b => err b ^ 2) ≤ (1 - 1 / (Max.max nEv 1000 : ℕ)) * (popStd W ^ 2 / (W.length * lo ^ 2)) := by
  set R := Max.max nEv 1000 with hR
  set n := W.length with hn
  have hR1 : 1000 ≤ R := le_max_right _ _
  haveI : NeZero R := ⟨by omega⟩
  have hn0 : 0 < n := List.length_pos_iff.mpr hne
  haveI : NeZero n := ⟨by omega⟩
  have hn' : (0 : ℝ) < n := by exact_mod_cast hn0
  haveI : Nonempty (Fin n) := ⟨⟨0, hn0⟩⟩
  haveI : Nonempty (Fin R) := ⟨⟨0, by omega⟩⟩
  have hW0 : ∀ w ∈ W, 0 ≤ w := fun w hw => hlo.le.trans (hW w hw).1
  -- the mean weight of a replicate
  let w : Fin n → ℝ := fun i => W[i]
  let m : (Fin n → Fin n) → ℝ := fun c => drawMean fun k => w (c k)
  have hw : ∀ i, lo ≤ w i ∧ w i ≤ hi := fun i => hW _ (List.getElem_mem _)
  have hm : ∀ c, lo ≤ m c ∧ m c ≤ hi := by
    intro c
    have h1 : ∑ _k : Fin n, lo ≤ ∑ k, w (c k) := Finset.sum_le_sum fun k _ => (hw _).1
    have h2 : ∑ k, w (c k) ≤ ∑ _k : Fin n, hi := Finset.sum_le_sum fun k _ => (hw _).2
    rw [Finset.sum_const, Finset.card_univ, Fintype.card_fin, nsmul_eq_mul] at h1 h2
    simp only [m, drawMean, Fintype.card_fin]
    rw [le_div_iff₀ hn', div_le_iff₀ hn']
    constructor <;> linarith
  have hboot : ∀ b : Fin R → Fin n → Fin n, ∀ r : Fin R, bootMean W (indices b r) = m (b r) := by
    intro b r
    unfold bootMean
    simp only [m, drawMean, Fintype.card_fin]
    rw [← hn]
    congr 1
    rw [← List.sum_ofFn]
    congr 1
    apply List.ext_getElem (by simp)
    intro k h1 h2
    simp only [List.length_map, List.length_range] at h1
    simp only [List.getElem_map, List.getElem_range, List.getElem_ofFn, indices]
    rw [dif_pos ⟨r.2, h1⟩, List.getD_eq_getElem?_getD, List.getElem?_eq_getElem (Fin.is_lt _)]
    rfl
  have hlt : ∀ b : Fin R → Fin n → Fin n, ∀ r, ∀ k < W.length, indices b r k < W.length := by
    intro b r k hk
    unfold indices
    split_ifs with h
    · exact (b _ _).2
    · exact hn0
  have hreps : ∀ b : Fin R → Fin n → Fin n, ((List.range R).map fun r => Real.log (bootMean W (indices b r))) = List.ofFn fun r => Real.log (m (b r)) := by
    intro b
    apply List.ext_getElem (by simp)
    intro r h1 h2
    simp only [List.length_map, List.length_range] at h1
    simp only [List.getElem_map, List.getElem_range, List.getElem_ofFn]
    exact congrArg Real.log (hboot b ⟨r, h1⟩)
  refine ⟨fun b => popStd (List.ofFn fun r => Real.log (m (b r))), fun b => ?_, ?_⟩
  · dsimp only
    rw [← hreps]
    refine (bootstrapErr_value W hne hW0 nEv (indices b) (hlt b)).1 ?_
    intro r hr hz
    have h1 := (allZero_iff W hne hW0 (indices b r)).mpr hz
    have h2 := hboot b ⟨r, hr⟩
    have h3 := (hm (b ⟨r, hr⟩)).1
    rw [← h2] at h3
    change lo ≤ bootMean W (indices b r) at h3
    linarith
  have e1 : drawMean (fun b : Fin R → Fin n → Fin n => popStd (List.ofFn fun r => Real.log (m (b r))) ^ 2) =
      (1 - 1 / R) * variance' fun c => Real.log (m c) := by
    simp only [popStd_sq_ofFn]
    have := average_variance (ι := Fin R) fun c : Fin n → Fin n => Real.log (m c)
    rwa [Fintype.card_fin] at this
  have e2 : variance' m = popStd W ^ 2 / n := by
    have h1 := (variance_mean (ι := Fin n) w).2
    rw [Fintype.card_fin] at h1
    rw [show variance' m = variance' fun b : Fin n → Fin n => drawMean fun i => w (b i) from rfl, h1, ← popStd_sq_ofFn]
    congr 3
    exact List.ofFn_getElem
  have h0 : (0 : ℝ) ≤ 1 - 1 / R := by
    have : (1 : ℝ) ≤ R := by exact_mod_cast (by omega : 1 ≤ R)
    have := (div_le_one (by linarith : (0 : ℝ) < R)).mpr this
    linarith
  have hhi : 0 < hi := lt_of_lt_of_le hlo ((hm fun k => k).1.trans (hm fun k => k).2)
  rw [e1]
  constructor
  · apply mul_le_mul_of_nonneg_left _ h0
    have := variance_le_of_lipschitz (f := m) (g := fun c => Real.log (m c)) (c := hi) fun c c' =>
      sub_le_log (hlo.trans_le (hm c).1) (hlo.trans_le (hm c').1) (hm c).2 (hm c').2
    rw [e2] at this
    rw [← div_div, div_le_iff₀ (by positivity)]
    linarith
  · apply mul_le_mul_of_nonneg_left _ h0
    have := variance_le_of_lipschitz (f := fun c => Real.log (m c)) (g := m) (c := lo⁻¹) fun c c' => log_sub_le hlo (hm c).1 (hm c').1
    rw [e2] at this
    refine this.trans_eq ?_
    field_simp

/-- A non-trivial case: weights 1, 2, 3. -/
example : ∃ err : (Fin 1000 → Fin 3 → Fin 3) → ℝ, (∀ b, bootstrapErr ([1, 2, 3].map logOf) 512 (indices b) = fin (err b)) ∧
    (1 - 1 / (1000 : ℕ)) * (popStd [1, 2, 3] ^ 2 / ((3 : ℕ) * 3 ^ 2)) ≤ drawMean (fun b => err b ^ 2) := by
  obtain ⟨err, h1, h2, -⟩ := C155_error_bar [1, 2, 3] (by simp) (lo := 1) (hi := 3) one_pos (by intro w hw; fin_cases hw <;> norm_num) 512
  exact ⟨err, h1, h2⟩

variable {d : ℕ} {B Φ : Type} {e : SamplerEnv d B Φ} {ll lp : Pt d → F} {bb : Pt d → List B} {hb : Bool} {s : Sampler d B Φ}

/-- **C155.** Repeat a run with the same transform but with new draws of the flow, independent and each with the density `q` that the flow reports.  The mean
square error of the evidence reported is the variance of one importance weight divided by the number of draws. -/
theorem C155_sampling {Ω : Type*} [MeasurableSpace Ω] (P : Measure Ω) [IsProbabilityMeasure P]
    (hu : UserFns e ll lp bb hb) (hp : ProperLike ll) (hp' : ProperLike lp) (hc : Configured e) (hs : Session e hb s)
    (rnd : Ω → Rnd d Φ) (hd : ∀ ω, Draws s.scaler.low s.scaler.high (rnd ω)) {fuel n : ℕ} {a : RunArgs} (s' : Ω → Sampler d B Φ)
    (hr : ∀ ω, (run e (rnd ω) fuel n a s).2 = .ok (s' ω)) (hpre : e.preconditioned = true) (hn : 0 < a.nEvidence)
    (X : (Fin d → ℝ) → Pt d) (D : (Fin d → ℝ) → ℝ) (hXD : ∀ ω θ, (s' ω).scaler.inverseRow (pt θ) = .ok (X θ, fin (D θ)))
    (q : (Fin d → ℝ) → ℝ) (hqm : Measurable q) (hq : ∀ θ, 0 < q θ) (Θ : Fin a.nEvidence → Ω → Fin d → ℝ) (hΘ : ∀ i, Measurable (Θ i))
    (hlaw : ∀ i, P.map (Θ i) = volume.withDensity fun θ => ENNReal.ofReal (q θ)) (hind : Pairwise fun i j => IndepFun (Θ i) (Θ j) P)
    (hdraw : ∀ ω, (rnd ω).flowSample (s' ω).t (s' ω).flow a.nEvidence = List.ofFn fun i => (pt (Θ i ω), fin (Real.log (q (Θ i ω)))))
    (hsup : ∀ x, StrictlyInside s.scaler.low s.scaler.high x → lp (pt x) ≠ ninf)
    (hint : IntegrableOn (fun x => unlog (ll (pt x)) * unlog (lp (pt x))) {x | StrictlyInside s.scaler.low s.scaler.high x})
    (hsq : Integrable fun θ => q θ * (unlog (ll (X θ)) * unlog (lp (X θ)) * Real.exp (D θ) / q θ) ^ 2)
    (Z₀ : ℝ) (hZ₀ : Z₀ = ∫ x in {x | StrictlyInside s.scaler.low s.scaler.high x}, unlog (ll (pt x)) * unlog (lp (pt x))) :
    ∃ Z : Ω → F, (∀ ω, (evidence (s' ω)).1 = some (Z ω)) ∧
      ∫ ω, (unlog (Z ω) - Z₀) ^ 2 ∂P =
        (∫ θ, q θ * (unlog (ll (X θ)) * unlog (lp (X θ)) * Real.exp (D θ) / q θ - Z₀) ^ 2) / a.nEvidence := by
  obtain ⟨hval, hWi, hWv⟩ := flow_values P hu hp hp' hc hs rnd hd s' hr hpre hn X D hXD q hqm hq Θ hdraw hsup hint
  have hNr : (0 : ℝ) < a.nEvidence := by exact_mod_cast hn
  refine ⟨_, hval, ?_⟩
  set W : (Fin d → ℝ) → ℝ := fun θ => isWeight ll lp X D (θ, Real.log (q θ)) with hWd
  have hWq : ∀ θ, unlog (ll (X θ)) * unlog (lp (X θ)) * Real.exp (D θ) / q θ = W θ := by
    intro θ
    simp only [W, isWeight, Real.exp_log (hq θ)]
  simp only [hWq] at hsq ⊢
  have hv2 : ∀ ω, unlog (logOf ((∑ i, W (Θ i ω)) / a.nEvidence)) = (∑ i, W (Θ i ω)) / a.nEvidence := fun ω =>
    unlog_logOf (div_nonneg (Finset.sum_nonneg fun i _ => isWeight_nonneg X D _) hNr.le)
  have hv3 : ∀ ω, unlog (logOf ((∑ i, isWeight ll lp X D (Θ i ω, Real.log (q (Θ i ω)))) / a.nEvidence)) = (∑ i, W (Θ i ω)) / a.nEvidence := hv2
  simp only [hv3]
  set law := volume.withDensity fun θ => ENNReal.ofReal (q θ) with hlawd
  rw [← hZ₀] at hWv
  have hqd : Measurable fun θ => ENNReal.ofReal (q θ) := hqm.ennreal_ofReal
  have hlt : ∀ᵐ θ : Fin d → ℝ, ENNReal.ofReal (q θ) < ⊤ := .of_forall fun _ => ENNReal.ofReal_lt_top
  have e1 : ∀ θ, (ENNReal.ofReal (q θ)).toReal = q θ := fun θ => ENNReal.toReal_ofReal (hq θ).le
  have hW2 : MemLp W 2 law := by
    rw [memLp_two_iff_integrable_sq hWi.aestronglyMeasurable, hlawd, integrable_withDensity_iff_integrable_smul' hqd hlt]
    simpa only [e1, smul_eq_mul] using hsq
  have hWi' : ∀ i, AEStronglyMeasurable W (P.map (Θ i)) := fun i => by rw [hlaw]; exact hWi.aestronglyMeasurable
  have hY2 : ∀ i, MemLp (W ∘ Θ i) 2 P := fun i => by
    rw [← memLp_map_measure_iff (hWi' i) (hΘ i).aemeasurable, hlaw]
    exact hW2
  have hYm : ∀ i, ∫ ω, W (Θ i ω) ∂P = Z₀ := fun i => by
    rw [← hWv, ← hlaw i, integral_map (hΘ i).aemeasurable (hWi' i)]
  have hYv : ∀ i, variance (W ∘ Θ i) P = ∫ θ, q θ * (W θ - Z₀) ^ 2 := fun i => by
    rw [variance_eq_integral (hY2 i).1.aemeasurable]
    simp only [Function.comp, hYm]
    have h1 := integral_map (μ := P) (hΘ i).aemeasurable (f := fun θ => (W θ - Z₀) ^ 2) (((hWi' i).sub aestronglyMeasurable_const).pow 2)
    rw [← h1, hlaw, hlawd, integral_withDensity_eq_integral_toReal_smul hqd hlt]
    simp only [e1, smul_eq_mul]
  have hsum : variance (∑ i, W ∘ Θ i) P = a.nEvidence * ∫ θ, q θ * (W θ - Z₀) ^ 2 := by
    rw [IndepFun.variance_sum (fun i _ => hY2 i) fun i _ j _ hij => (hind hij).comp₀ (hΘ i).aemeasurable (hΘ j).aemeasurable
      (hWi' i).aemeasurable (hWi' j).aemeasurable]
    simp only [hYv, Finset.sum_const, Finset.card_univ, Fintype.card_fin, nsmul_eq_mul]
  have hmean : ∫ ω, (a.nEvidence : ℝ)⁻¹ * (∑ i, W (Θ i ω)) ∂P = Z₀ := by
    rw [integral_const_mul, integral_finset_sum (f := fun i ω => W (Θ i ω)) _ fun i _ => (hY2 i).integrable (by norm_num)]
    simp only [hYm, Finset.sum_const, Finset.card_univ, Fintype.card_fin, nsmul_eq_mul]
    field_simp
  have hfin : variance (fun ω => (a.nEvidence : ℝ)⁻¹ * (∑ i, W ∘ Θ i) ω) P = ∫ ω, ((∑ i, W (Θ i ω)) / a.nEvidence - Z₀) ^ 2 ∂P := by
    rw [variance_eq_integral]
    · simp only [Finset.sum_apply, Function.comp, hmean]
      congr 1
      funext ω
      rw [inv_mul_eq_div]
    · exact (AEMeasurable.const_mul (Finset.aemeasurable_sum _ fun i _ => (hY2 i).1.aemeasurable) _)
  rw [← hfin, variance_const_mul, hsum]
  field_simp

namespace Demo

open scoped Classical in
/-- A likelihood that is zero where the first parameter is above 4. -/
noncomputable def ll155 : Pt 2 → F := fun x => if x 0 > fin 4 then ninf else fin 0

/-- A normal prior with mean 3/2 and variance 5/4. -/
noncomputable def lp155 (x : Pt 2) : F := fin (Real.log (q103 fun i => ((match x i with | .fin r => r | _ => 0) - 1.5) / Real.sqrt 1.25))

/-- The flow draws the two points of `ω`. -/
noncomputable def rnd155 (ω : (Fin 2 → ℝ) × (Fin 2 → ℝ)) : Rnd 2 Unit :=
  { rnd59 with flowSample := fun _ _ _ => [(pt ω.1, fin (Real.log (q103 ω.1))), (pt ω.2, fin (Real.log (q103 ω.2)))] }

theorem run155 (ω : (Fin 2 → ℝ) × (Fin 2 → ℝ)) : Draws start.scaler.low start.scaler.high (rnd155 ω) ∧
    ∃ s, (run (envOf ll155 lp155) (rnd155 ω) 0 1 (args 2) start).2 = .ok s := by
  have hf : FlatEnv (envOf ll155 lp155) ll155 := ⟨fun x => by unfold ll155; split_ifs <;> simp, rfl, rfl⟩
  have hd : Draws start.scaler.low start.scaler.high (rnd155 ω) := ⟨draws59.prior, draws59.mcmc⟩
  have hrel : Reliable (envOf ll155 lp155) (rnd155 ω) :=
    { geo := fun _ _ _ => ⟨_, rfl⟩
      flow := fun _ _ _ _ => ⟨_, rfl⟩
      inv := fun m => ⟨m, rfl⟩
      chol := fun m => ⟨m, rfl⟩
      dim := by simp [env, envOf]
      freq := by simp [env, envOf]
      ratio := ⟨_, rfl⟩
      mult := fun _ _ => ⟨le_rfl, one_pos⟩
      syst := fun _ => ⟨le_rfl, one_pos⟩ }
  have hprior : (rnd155 ω).prior (envOf ll155 lp155).nPrior = [pt fun _ => 0, pt fun _ => 1, pt fun _ => 2, pt fun _ => 3] := by
    simp [rnd155, rnd59, rnd, envOf, env, List.range_succ]
  obtain ⟨s, its, hr, -⟩ := flat_first_run hf (userOf _ lp155) (configuredOf _ lp155) hd hrel (freshOf _ lp155) (fun x hx => by
      rw [hprior] at hx
      simp only [List.mem_cons, List.not_mem_nil, or_false] at hx
      rcases hx with rfl | rfl | rfl | rfl <;> refine if_neg ?_ <;> simp only [pt, gt_iff_lt, F.fin_lt] <;> norm_num)
    (by simp [env, envOf, start]) (args 2) (by simp [args]) (by simp [args, env, envOf]) 0 0
  exact ⟨hd, s, hr⟩

theorem scaler155 (ω : (Fin 2 → ℝ) × (Fin 2 → ℝ)) (s1 : Sampler 2 Unit Unit) (h : runInit (envOf ll155 lp155) (rnd155 ω) (args 2) start = .ok s1)
    (θ : Fin 2 → ℝ) : s1.scaler.inverseRow (pt θ) =
      .ok (pt fun i => 1.5 + Real.sqrt 1.25 * θ i, fin (Real.log (Real.sqrt 1.25) + Real.log (Real.sqrt 1.25))) := by
  rcases runInit_ok h with ⟨⟨ps, hps⟩, -⟩ | ⟨-, sc, hsc, rfl⟩
  · cases hps
  · unfold Scaler.fit at hsc
    split_ifs at hsc
    simp only [Except.ok.injEq] at hsc
    subst hsc
    have hprior : (rnd155 ω).prior (envOf ll155 lp155).nPrior = [pt fun _ => 0, pt fun _ => 1, pt fun _ => 2, pt fun _ => 3] := by
      simp [rnd155, rnd59, rnd, envOf, env, List.range_succ]
    have hcol : ∀ i, (((rnd155 ω).prior (envOf ll155 lp155).nPrior).map start.scaler.fwdRow).map (· i) = ([0, 1, 2, 3] : List ℝ).map fin := by
      intro i
      rw [hprior]
      simp [Scaler.fwdRow, start, Scaler.init, fwdCoord, createMasks, isfinite, pt]
    have hm : F.mean (([0, 1, 2, 3] : List ℝ).map fin) = fin 1.5 := by
      rw [mean_fin _ (by simp)]; norm_num
    have hs : F.std (([0, 1, 2, 3] : List ℝ).map fin) = fin (Real.sqrt 1.25) := by
      rw [std_fin _ (by simp)]; norm_num
    have hpos : 0 < Real.sqrt 1.25 := Real.sqrt_pos.mpr (by norm_num)
    have hl : F.log (fin (Real.sqrt 1.25)) = fin (Real.log (Real.sqrt 1.25)) := by
      simp only [F.log]
      rw [if_neg hpos.le.not_gt, if_neg hpos.ne']
    show Except.ok _ = Except.ok _
    congr 1
    simp only [Scaler.invRow, Affine.inverse, hcol, hm, hs, hl]
    simp only [start, Scaler.init, invCoord, createMasks, isfinite, pt, fin_mul, fin_add]
    simp [F.sum, List.ofFn_succ]
    rfl

/-- With two independent normal draws of the flow and this likelihood, the mean square error of the evidence is half the variance of a weight. -/
example : ∃ (P : Measure ((Fin 2 → ℝ) × (Fin 2 → ℝ))) (_ : IsProbabilityMeasure P) (s' : (Fin 2 → ℝ) × (Fin 2 → ℝ) → Sampler 2 Unit Unit)
    (Z : (Fin 2 → ℝ) × (Fin 2 → ℝ) → F) (W : (Fin 2 → ℝ) → ℝ) (Z₀ : ℝ),
    (∀ ω, (run (envOf ll155 lp155) (rnd155 ω) 0 1 (args 2) start).2 = .ok (s' ω)) ∧ (∀ ω, (evidence (s' ω)).1 = some (Z ω)) ∧ W 0 ≠ W 4 ∧
    ∫ ω, (unlog (Z ω) - Z₀) ^ 2 ∂P = (∫ θ, q103 θ * (W θ - Z₀) ^ 2) / 2 := by
  choose hd s' hr using run155
  have hp : ProperLike ll155 := fun x => by
    unfold ll155; split_ifs
    · exact .inl rfl
    · exact .inr ⟨_, rfl⟩
  have hp' : ProperLike lp155 := fun x => .inr ⟨_, rfl⟩
  have hpos : 0 < Real.sqrt 1.25 := Real.sqrt_pos.mpr (by norm_num)
  have hXD : ∀ ω θ, (s' ω).scaler.inverseRow (pt θ) =
      .ok (pt fun i => 1.5 + Real.sqrt 1.25 * θ i, fin (Real.log (Real.sqrt 1.25) + Real.log (Real.sqrt 1.25))) := fun ω θ => by
    obtain ⟨s1, h1, e1⟩ := run_scaler (hr ω)
    rw [e1]
    exact scaler155 ω s1 h1 θ
  generalize hD0 : Real.log (Real.sqrt 1.25) + Real.log (Real.sqrt 1.25) = D0 at hXD
  have hlp : ∀ θ : Fin 2 → ℝ, unlog (lp155 (pt fun i => 1.5 + Real.sqrt 1.25 * θ i)) = q103 θ := by
    intro θ
    have h1 : (fun i => (1.5 + Real.sqrt 1.25 * θ i - 1.5) / Real.sqrt 1.25) = θ := by
      funext i
      field_simp
      ring
    simp only [lp155, pt, unlog, h1, Real.exp_log (q103_pos θ)]
  let I : (Fin 2 → ℝ) → ℝ := fun θ => if 4 < 1.5 + Real.sqrt 1.25 * θ 0 then 0 else 1
  have hll : ∀ θ : Fin 2 → ℝ, unlog (ll155 (pt fun i => 1.5 + Real.sqrt 1.25 * θ i)) = I θ := by
    intro θ
    simp only [ll155, pt, gt_iff_lt, F.fin_lt, I]
    split_ifs <;> simp [unlog]
  have hIm : Measurable I := Measurable.ite (measurableSet_lt measurable_const (by fun_prop)) measurable_const measurable_const
  have hI1 : ∀ θ, ‖I θ‖ ≤ 1 := fun θ => by
    simp only [I]; split_ifs <;> simp
  have hIq : Integrable fun θ => I θ * q103 θ := q103_integrable.bdd_mul hIm.aestronglyMeasurable (.of_forall hI1)
  have hW : ∀ θ : Fin 2 → ℝ, unlog (ll155 (pt fun i => 1.5 + Real.sqrt 1.25 * θ i)) * unlog (lp155 (pt fun i => 1.5 + Real.sqrt 1.25 * θ i)) *
      Real.exp D0 / q103 θ = I θ * Real.exp D0 := by
    intro θ
    rw [hll, hlp]
    have := (q103_pos θ).ne'
    field_simp
  obtain ⟨hok, hlo, hhi⟩ := run_ok_scaler (userOf ll155 lp155) (configuredOf _ lp155) (.fresh (freshOf _ lp155)) (hd 0) (hr 0)
  obtain ⟨b1, -⟩ := integral_box (s' 0).scaler hok (fun θ => pt fun i => 1.5 + Real.sqrt 1.25 * θ i) (fun _ => D0) (hXD 0)
    (fun x => unlog (ll155 (pt x)) * unlog (lp155 (pt x))) (fun x => unlog (ll155 x) * unlog (lp155 x)) (fun _ => rfl)
  rw [hlo, hhi] at b1
  let G := Measure.pi fun _ : Fin 2 => ProbabilityTheory.gaussianReal 0 1
  let Θ : Fin 2 → (Fin 2 → ℝ) × (Fin 2 → ℝ) → Fin 2 → ℝ := fun i ω => if i = 0 then ω.1 else ω.2
  have hΘ : ∀ i, Measurable (Θ i) := fun i => by
    simp only [Θ]; split_ifs <;> fun_prop
  have hind : IndepFun (fun ω : (Fin 2 → ℝ) × (Fin 2 → ℝ) => ω.1) (fun ω => ω.2) (G.prod G) :=
    indepFun_prod (X := id) (Y := id) measurable_id measurable_id
  have hpair : Pairwise fun i j => IndepFun (Θ i) (Θ j) (G.prod G) := fun i j hij => by
    have hi : i = 0 ∧ j = 1 ∨ i = 1 ∧ j = 0 := by
      revert i j; decide
    rcases hi with ⟨rfl, rfl⟩ | ⟨rfl, rfl⟩
    · exact hind
    · exact hind.symm
  obtain ⟨Z, h1, h2⟩ := C155_sampling (a := args 2) (G.prod G) (userOf _ lp155) hp hp' (configuredOf _ lp155)
    (.fresh (freshOf _ lp155)) rnd155 hd s' hr rfl (by simp [args]) (fun θ => pt fun i => 1.5 + Real.sqrt 1.25 * θ i) (fun _ => D0) hXD
    q103 q103_measurable q103_pos Θ hΘ
    (fun i => by
      rw [← q103_law]
      simp only [Θ]
      split_ifs
      · exact (measurePreserving_fst (μ := G) (ν := G)).map_eq
      · exact (measurePreserving_snd (μ := G) (ν := G)).map_eq)
    hpair
    (fun ω => by simp [rnd155, args, Θ, List.ofFn_succ]) (fun x _ => by simp [lp155])
    (b1.mpr (by
      simp only [hll, hlp]
      exact hIq.const_mul _))
    (by
      simp only [hW]
      refine (q103_integrable.bdd_mul (f := fun θ => (I θ * Real.exp D0) ^ 2) (c := Real.exp D0 ^ 2) (by fun_prop) (.of_forall fun θ => ?_)).congr
        (.of_forall fun θ => mul_comm _ _)
      rw [norm_pow, norm_mul, Real.norm_of_nonneg (Real.exp_pos _).le]
      exact pow_le_pow_left₀ (by positivity) (mul_le_of_le_one_left (Real.exp_pos _).le (hI1 θ)) 2)
    _ rfl
  simp only [hW] at h2
  refine ⟨_, inferInstance, s', Z, fun θ => I θ * Real.exp D0, _, hr, h1, ?_, h2⟩
  have h54 : (1 : ℝ) < Real.sqrt 1.25 := by
    rw [Real.lt_sqrt (by norm_num)]; norm_num
  have i0 : I 0 = 1 := if_neg (by simp; norm_num)
  have i4 : I 4 = 0 := if_pos (by simp; nlinarith)
  simp [i0, i4]

end Demo

end Poco
