import Verif.Lemmas.SmcUniform
import Verif.Props.TrimMass
import Verif.Props.Reweight

/-! Estimates with random temperatures and biased particles, and the effect of trimming, for C133. -/

namespace Poco
open F Spec MeasureTheory Filter Topology ProbabilityTheory

section
variable {α : Type*} [MeasurableSpace α] {T : ℕ}

theorem summand_bound (hT : 0 < T) (l : α → ℝ) (M : ℝ) (hM : ∀ y, |l y| ≤ M) (b Z : Fin T → ℝ) (hb : ∀ r, 0 ≤ b r ∧ b r ≤ 1)
    (hZ : ∀ r, Real.exp (-M) ≤ Z r ∧ Z r ≤ Real.exp M) (β : ℝ) (hβ : 0 ≤ β ∧ β ≤ 1) (f : α → ℝ) (F : ℝ) (hF : ∀ y, |f y| ≤ F) (y : α) :
    |summand l b Z β f y| ≤ Real.exp (3 * M) * F := by
  have hTr : (0 : ℝ) < T := by exact_mod_cast hT
  have hlb : ∀ c, 0 ≤ c ∧ c ≤ 1 → |l y * c| ≤ M := fun c hc => by
    rw [abs_mul, abs_of_nonneg hc.1]
    exact (mul_le_of_le_one_right (abs_nonneg _) hc.2).trans (hM y)
  have hden : Real.exp (-(2 * M)) ≤ (∑ r, Real.exp (l y * b r) / Z r) / T := by
    rw [le_div_iff₀ hTr]
    have : ∑ _r : Fin T, Real.exp (-(2 * M)) ≤ ∑ r, Real.exp (l y * b r) / Z r := by
      apply Finset.sum_le_sum
      intro r _
      rw [le_div_iff₀ ((Real.exp_pos _).trans_le (hZ r).1)]
      calc Real.exp (-(2 * M)) * Z r ≤ Real.exp (-(2 * M)) * Real.exp M := mul_le_mul_of_nonneg_left (hZ r).2 (Real.exp_pos _).le
        _ = Real.exp (-M) := by rw [← Real.exp_add]; congr 1; ring
        _ ≤ _ := Real.exp_le_exp.mpr (abs_le.mp (hlb _ (hb r))).1
    simpa [mul_comm] using this
  unfold summand
  rw [abs_mul, abs_of_pos (div_pos (Real.exp_pos _) ((Real.exp_pos _).trans_le hden))]
  refine mul_le_mul ?_ (hF y) (abs_nonneg _) (Real.exp_pos _).le
  rw [div_le_iff₀ ((Real.exp_pos _).trans_le hden)]
  calc Real.exp (l y * β) ≤ Real.exp M := Real.exp_le_exp.mpr ((le_abs_self _).trans (hlb β hβ))
    _ = Real.exp (3 * M) * Real.exp (-(2 * M)) := by rw [← Real.exp_add]; congr 1; ring
    _ ≤ _ := mul_le_mul_of_nonneg_left hden (Real.exp_pos _).le

variable {Ω : ℕ → Type*} [∀ n, MeasurableSpace (Ω n)]

/-- The estimate with random temperatures and a random function out of a totally bounded family, when recorded evidences and averages are
off by at most given amounts. -/
theorem estimate_within (hT : 0 < T) (π : Measure α) [IsProbabilityMeasure π] (P : ∀ n, Measure (Ω n)) (l : α → ℝ) (hl : Measurable l) (M : ℝ)
    (hM : ∀ y, |l y| ≤ M) (b : ∀ n, Ω n → Fin T → ℝ) (hb : ∀ n, 0 < n → ∀ ω r, 0 ≤ b n ω r ∧ b n ω r ≤ 1)
    (X : ∀ n, Fin T → ℕ → Ω n → α) (z : ∀ n, Ω n → Fin T → ℝ) (ζ κ : Fin T → ℝ)
    (hz : ∀ r, NearlyWithin P (fun n ω => Real.exp (z n ω r) / evidenceAt π l (b n ω r) - 1) (ζ r))
    (hA : ∀ t f F, Tame f → (∀ y, |f y| ≤ F) →
      NearlyWithin P (fun n ω => (∑ i : Fin n, f (X n t i ω)) / n - ∫ y, f y ∂(tempered π l (b n ω t))) (κ t * F))
    {Q : Type*} (D : Set Q) (f : Q → α → ℝ) (F : ℝ) (hF0 : 0 ≤ F) (hf : ∀ q ∈ D, Measurable (f q)) (hF : ∀ q ∈ D, ∀ y, |f q y| ≤ F)
    (hs : ∀ ε > 0, Small D fun q q' => ∀ y, |f q y - f q' y| ≤ ε)
    (q : ∀ n, Ω n → Q) (hq : ∀ n, 0 < n → ∀ ω, q n ω ∈ D) (β : ∀ n, Ω n → ℝ) (hβ : ∀ n, 0 < n → ∀ ω, 0 ≤ β n ω ∧ β n ω ≤ 1) :
    NearlyWithin P (fun n ω => estimate l (b n ω) (β n ω) (f (q n ω)) (fun t i => X n t i ω) n (z n ω) - ∫ x, f (q n ω) x * Real.exp (l x * β n ω) ∂π)
      ((∑ r, (ζ r + κ r)) * (Real.exp (3 * M) * F)) := by
  have hlt : Tame l := ⟨hl, M, hM⟩
  have hpos : ∀ β, 0 < evidenceAt π l β := fun β => evidence_pos π l _ (exp_integrable π l hlt _)
  have hpr : ∀ β, IsProbabilityMeasure (tempered π l β) := fun β => tempered_prob π l _ (exp_integrable π l hlt _) (hpos _)
  have hrange := fun b h0 h1 => evidence_range π l hlt M hM (b := b) h0 h1
  set C := Real.exp (3 * M) * F with hC
  have hC0 : 0 ≤ C := by positivity
  -- the family of summands
  let E : Set ((Fin T → ℝ) × ℝ × Q) := {p | (∀ r, p.1 r ∈ Set.Icc (0 : ℝ) 1) ∧ p.2.1 ∈ Set.Icc (0 : ℝ) 1 ∧ p.2.2 ∈ D}
  let g : (Fin T → ℝ) × ℝ × Q → α → ℝ := fun p => summand l p.1 (fun t => evidenceAt π l (p.1 t)) p.2.1 (f p.2.2)
  have hgt : ∀ p ∈ E, Tame (g p) := fun p hp => summand_tame hT l hlt _ _ (fun _ => hpos _) _ _ ⟨hf _ hp.2.2, F, hF _ hp.2.2⟩
  have hgC : ∀ p ∈ E, ∀ y, |g p y| ≤ C := fun p hp y =>
    summand_bound hT l M hM _ _ hp.1 (fun r => hrange _ (hp.1 r).1 (hp.1 r).2) _ hp.2.1 _ F (hF _ hp.2.2) y
  have hgs : ∀ ε > 0, Small E fun p p' => ∀ y, |g p y - g p' y| ≤ ε := by
    intro ε hε
    obtain ⟨δ, hδ, h⟩ := summandAt_uniform hT M F hε
    obtain ⟨δ', hδ', h'⟩ := evidence_uniform π l hlt hδ
    have s1 : Small E fun p p' => ∀ r, |p.1 r - p'.1 r| < min δ δ' :=
      Small.forall fun r => (small_unit (lt_min hδ hδ')).comap (fun p : (Fin T → ℝ) × ℝ × Q => p.1 r) fun p hp => hp.1 r
    have s2 : Small E fun p p' => |p.2.1 - p'.2.1| < δ := (small_unit hδ).comap (fun p : (Fin T → ℝ) × ℝ × Q => p.2.1) fun p hp => hp.2.1
    have s3 : Small E fun p p' => ∀ y, |f p.2.2 y - f p'.2.2 y| ≤ δ / 2 :=
      (hs (δ / 2) (by positivity)).comap (fun p : (Fin T → ℝ) × ℝ × Q => p.2.2) fun p hp => hp.2.2
    refine ((s1.and s2).and s3).mono fun p hp p' hp' hr y => le_of_lt ?_
    obtain ⟨⟨r1, r2⟩, r3⟩ := hr
    refine h _ _ _ _ _ _ _ _ _ _ (hM y) hp.1 (fun r => hrange _ (hp.1 r).1 (hp.1 r).2) hp.2.1 (hF _ hp.2.2 y)
      (hM y) hp'.1 (fun r => hrange _ (hp'.1 r).1 (hp'.1 r).2) hp'.2.1 (hF _ hp'.2.2 y) (by simpa using hδ)
      (fun r => (r1 r).trans_le (min_le_left _ _)) (fun r => h' _ _ (hp.1 r) (hp'.1 r) ((r1 r).trans_le (min_le_right _ _))) r2 ?_
    exact (r3 y).trans_lt (by linarith)
  have hU : ∀ t, NearlyWithin P (fun n ω => (∑ i : Fin n, g (b n ω, β n ω, q n ω) (X n t i ω)) / n - ∫ y, g (b n ω, β n ω, q n ω) y ∂(tempered π l (b n ω t)))
      (κ t * C) := fun t =>
    uniform_within E g hgt hgs (fun n i ω => X n t i ω) (fun n ω => tempered π l (b n ω t)) (fun n _ ω => hpr _) (κ t) C hgC hC0
      (fun f hf hfC => hA t f C hf hfC) (fun n ω => (b n ω, β n ω, q n ω)) fun n hn ω => ⟨hb n hn ω, hβ n hn ω, hq n hn ω⟩
  apply within_of_closes
  intro ε hε
  refine ⟨Fin T ⊕ Fin T, inferInstance, Sum.elim (fun r n ω => Real.exp (z n ω r) / evidenceAt π l (b n ω r) - 1)
      (fun t n ω => (∑ i : Fin n, g (b n ω, β n ω, q n ω) (X n t i ω)) / n - ∫ y, g (b n ω, β n ω, q n ω) y ∂(tempered π l (b n ω t))),
    Sum.elim ζ (fun t => κ t * C), fun k => ?_, ε / (T * (C + 1) + 1), by positivity, ?_⟩
  · rcases k with r | t
    · exact hz r
    · exact hU t
  filter_upwards [eventually_gt_atTop 0] with n hn ω hω
  have hfq := hf _ (hq n hn ω)
  have hFq := hF _ (hq n hn ω)
  obtain ⟨-, -, hint⟩ := summand_integral hT π l hl (b n ω) (fun t => hpos _) (β n ω) (f (q n ω)) hfq (tame_exp_integrable π l hlt (β n ω) _ ⟨hfq, F, hFq⟩)
  rw [← hint]
  refine (estimate_close hT l (b n ω) _ (fun r => hpos _) (β n ω) (f (q n ω)) (fun t i => X n t i ω) n hn (z n ω)
    (fun t => ∫ x, summand l (b n ω) (fun t => evidenceAt π l (b n ω t)) (β n ω) (f (q n ω)) x ∂(tempered π l (b n ω t))) C
    (hgC (b n ω, β n ω, q n ω) ⟨hb n hn ω, hβ n hn ω, hq n hn ω⟩)).trans_lt ?_
  have h1 : ∑ r, |Real.exp (z n ω r) / evidenceAt π l (b n ω r) - 1| ≤ ∑ r, (ζ r + ε / (T * (C + 1) + 1)) :=
    Finset.sum_le_sum fun r _ => (hω (Sum.inl r)).le
  have h2 : ∑ t, |(∑ i : Fin n, summand l (b n ω) (fun t => evidenceAt π l (b n ω t)) (β n ω) (f (q n ω)) (X n t i ω)) / n -
      ∫ x, summand l (b n ω) (fun t => evidenceAt π l (b n ω t)) (β n ω) (f (q n ω)) x ∂(tempered π l (b n ω t))| ≤
      ∑ t, (κ t * C + ε / (T * (C + 1) + 1)) := Finset.sum_le_sum fun t _ => (hω (Sum.inr t)).le
  have h3 := mul_le_mul_of_nonneg_right h1 hC0
  refine (add_le_add h3 h2).trans_lt ?_
  simp only [Finset.sum_add_distrib, Finset.sum_const, Finset.card_univ, Fintype.card_fin, nsmul_eq_mul, ← Finset.sum_mul]
  have h4 : (T * (C + 1)) * (ε / (T * (C + 1) + 1)) < ε := by
    rw [mul_div_assoc', div_lt_iff₀ (by positivity)]
    nlinarith
  nlinarith [h4]

end

theorem zipWith_exp_le {α : Type*} (f : α → ℝ) (F : ℝ) (hF0 : 0 ≤ F) (hF : ∀ y, |f y| ≤ F) (lw : List ℝ) (c : List α) :
    |(List.zipWith (fun a y => Real.exp a * f y) lw c).sum| ≤ F * (lw.map Real.exp).sum := by
  induction lw generalizing c with
  | nil => simp
  | cons a lw ih =>
    cases c with
    | nil =>
      have : 0 ≤ ((a :: lw).map Real.exp).sum := List.sum_nonneg fun x hx => by
        obtain ⟨a', -, rfl⟩ := List.mem_map.mp hx
        exact (Real.exp_pos _).le
      simpa using mul_nonneg hF0 this
    | cons y c =>
      simp only [List.zipWith_cons_cons, List.sum_cons, List.map_cons]
      refine (abs_add_le _ _).trans ?_
      rw [mul_add]
      refine add_le_add ?_ (ih c)
      rw [abs_mul, abs_of_pos (Real.exp_pos _), mul_comm]
      exact mul_le_mul_of_nonneg_right (hF y) (Real.exp_pos _).le

theorem estimate_ratio_le {α : Type*} [MeasurableSpace α] {T n d : ℕ} {B : Type} (hT : 0 < T) (hn : 0 < n) (l : α → ℝ) (b z : Fin T → ℝ) (x : Fin T → ℕ → α)
    (past : Cols d B List) (hp : Holds past (stagesOf l b z fun t (i : Fin n) => x t i)) (β : ℝ) (f : α → ℝ) (F : ℝ) (hF : ∀ y, |f y| ≤ F) :
    |estimate l b β f x n z / estimate l b β (fun _ => 1) x n z| ≤ F := by
  obtain ⟨lw, ze, h1, h2, h3, h4⟩ := weighted_average l b z (fun t (i : Fin n) => x t i) hT hn past hp β
  have e1 : estimate l b β (fun _ => 1) x n z = Real.exp ze := by
    have := h4 fun _ => 1
    rw [zipWith_one _ _ h3, h2, mul_one] at this
    exact this.symm
  have e3 : estimate l b β f x n z / estimate l b β (fun _ => 1) x n z =
      (List.zipWith (fun a y => Real.exp a * f y) lw (allParticles fun t (i : Fin n) => x t i)).sum := by
    rw [e1]
    have := h4 f
    unfold estimate
    rw [← this, mul_div_cancel_left₀ _ (Real.exp_pos _).ne']
  rw [e3]
  have := zipWith_exp_le f F ((abs_nonneg _).trans (hF (x ⟨0, hT⟩ 0))) hF lw (allParticles fun t (i : Fin n) => x t i)
  rwa [h2, mul_one] at this

/-- The mean of `f` over a particle picked with the trimmed weights is close to the one over a particle picked with all the weights. -/
theorem trim_pick {α : Type*} [MeasurableSpace α] {T n d : ℕ} {B : Type} (hT : 0 < T) (hn : 0 < n) (l : α → ℝ) (b z : Fin T → ℝ) (x : Fin T → ℕ → α)
    (past : Cols d (List B) List) (hp : Holds past (stagesOf l b z fun t (i : Fin n) => x t i)) (β : ℝ) (w : List F)
    (hw : weightsAt past (fin β) = .ok w) (e : ℝ) (he : e ≤ 1) (bins : ℕ) (hb : 1 ≤ bins) (tr : Trimmed α)
    (ht : trimWeights (allParticles fun t (i : Fin n) => x t i) (normalize w) (fin e) bins = .ok tr) (v : List ℝ) (hv : tr.weights = v.map fin)
    (f : α → ℝ) (F : ℝ) (hF : ∀ y, |f y| ≤ F) :
    |(List.zipWith (fun a y => a * f y) v tr.samples).sum - estimate l b β f x n z / estimate l b β (fun _ => 1) x n z| ≤ 2 * (1 - e) * F ∧
      0 < estimate l b β (fun _ => 1) x n z ∧ |estimate l b β f x n z / estimate l b β (fun _ => 1) x n z| ≤ F := by
  have hr := stagesOf_rect l b z (fun t (i : Fin n) => x t i) hT hn
  obtain ⟨c, hc, hwc⟩ := weightsAt_fin past _ n hr hp β
  obtain ⟨lw, ze, h1, h2, h3, -, -⟩ := C15_mixture_weights past _ n hr hp β
  obtain ⟨lw', ze', k1, k2, k3⟩ := logz_estimate hT hn l b z x past hp β
  rw [h1] at k1
  simp only [Except.ok.injEq, Prod.mk.injEq, fin_inj] at k1
  have hinj : Function.Injective (fin : ℝ → Poco.F) := fun _ _ h => fin_inj.mp h
  obtain rfl := List.map_injective_iff.mpr hinj k1.1
  obtain rfl := k1.2
  rw [hwc] at hw
  obtain rfl := Except.ok.inj hw
  have htot := totalWeight_pos hr β
  set wt := weights (stagesOf l b z fun t (i : Fin n) => x t i) β with hwt
  have hsum : (wt.map (c * ·)).sum = c * wt.sum := by
    rw [List.sum_map_mul_left]; simp
  have hwts : wt.sum = totalWeight (stagesOf l b z fun t (i : Fin n) => x t i) β := rfl
  have hne : (wt.map (c * ·)).sum ≠ 0 := by
    rw [hsum, hwts]; positivity
  rw [normalize_fin _ hne] at ht
  have hwn : (wt.map (c * ·)).map (· / (wt.map (c * ·)).sum) = lw.map Real.exp := by
    rw [h2, hsum, hwts, hwt, weights, List.map_map, List.map_map]
    apply List.map_congr_left
    intro a _
    simp only [Function.comp]
    rw [mul_div_mul_left _ _ hc.ne']
  rw [hwn] at ht
  have hlen : (allParticles fun t (i : Fin n) => x t i).length = (lw.map Real.exp).length := by
    rw [h2, List.length_map, stagesOf_allLogl, List.length_map]
  have hW : IsWeights (lw.map Real.exp) := ⟨fun a ha => by
    obtain ⟨a', -, rfl⟩ := List.mem_map.mp ha
    exact (Real.exp_pos _).le, by rw [h3]; exact one_pos⟩
  obtain ⟨r, kept, g1, g2, g3, g4, g5, g6, g7⟩ := C118_trim_mass (allParticles fun t (i : Fin n) => x t i) (lw.map Real.exp) hW hlen e he bins hb
  rw [g1] at ht
  obtain rfl := Except.ok.inj ht
  have hv' : v = kept.map fun q => q.2 / (kept.map (·.2)).sum := by
    apply List.map_injective_iff.mpr hinj
    rw [← hv, g4, List.map_map]
    rfl
  have e1 : (List.zipWith (fun a y => a * f y) v r.samples).sum = Spec.average f kept := by
    rw [hv', g3, List.zipWith_map, List.zipWith_self]
    unfold Spec.average
    rw [div_eq_inv_mul, ← sum_map_mul_left']
    congr 1
    apply List.map_congr_left
    intro q _
    ring
  have e2 : Spec.average f ((allParticles fun t (i : Fin n) => x t i).zip (lw.map Real.exp)) =
      (List.zipWith (fun a y => Real.exp a * f y) lw (allParticles fun t (i : Fin n) => x t i)).sum := by
    rw [average_zip _ _ _ hlen, h3, div_one, List.zipWith_map, List.zipWith_comm]
  have e3 : estimate l b β f x n z / estimate l b β (fun _ => 1) x n z =
      (List.zipWith (fun a y => Real.exp a * f y) lw (allParticles fun t (i : Fin n) => x t i)).sum := by
    rw [← k2, ← k3 f, mul_div_cancel_left₀ _ (Real.exp_pos _).ne']
  refine ⟨by rw [e1, e3, ← e2]; exact g7 f F hF, by rw [← k2]; exact Real.exp_pos _,
    estimate_ratio_le hT hn l b z x past hp β f F hF⟩

end Poco
