import Verif.Props.SmcAdapt
import Verif.Lemmas.TrimDrop

/-! Two iterations of the algorithm on a space of two points, for the non-vacuity of C133 and for the effect of trimming on C132. -/

namespace Poco
open F Spec MeasureTheory Filter Topology ProbabilityTheory

/-- Pick a particle with its trimmed weight, then move it. -/
noncomputable def pickTrimmed {α : Type*} [MeasurableSpace α] (K : Kernel α α) (v : List ℝ) (c : List α) : Measure α :=
  (List.zipWith (fun a y => ENNReal.ofReal a • K y) v c).sum

theorem pickTrimmed_integral {α : Type*} [MeasurableSpace α] (K : Kernel α α) [IsMarkovKernel K] (v : List ℝ) (hv : ∀ a ∈ v, 0 ≤ a) (c : List α)
    (f : α → ℝ) (hf : Tame f) : IsFiniteMeasure (pickTrimmed K v c) ∧
      ∫ y, f y ∂(pickTrimmed K v c) = (List.zipWith (fun a y => a * ∫ y', f y' ∂(K y)) v c).sum := by
  obtain ⟨hfm, F, hF⟩ := hf
  induction v generalizing c with
  | nil => simp only [pickTrimmed, List.zipWith_nil_left, List.sum_nil, integral_zero_measure, and_true]; infer_instance
  | cons a v ih =>
    cases c with
    | nil => simp only [pickTrimmed, List.zipWith_nil_right, List.sum_nil, integral_zero_measure, and_true]; infer_instance
    | cons y c =>
      obtain ⟨h1, h2⟩ := ih (fun a ha => hv a (by simp [ha])) c
      have hs : IsFiniteMeasure (ENNReal.ofReal a • K y) := Measure.smul_finite _ ENNReal.ofReal_ne_top
      have e : pickTrimmed K (a :: v) (y :: c) = ENNReal.ofReal a • K y + pickTrimmed K v c := by simp [pickTrimmed]
      rw [e]
      refine ⟨inferInstance, ?_⟩
      have hi : ∀ ν : Measure α, IsFiniteMeasure ν → Integrable f ν := fun ν _ => Integrable.of_bound hfm.aestronglyMeasurable F (.of_forall hF)
      rw [integral_add_measure (hi _ hs) (hi _ h1), h2, integral_smul_measure, ENNReal.toReal_ofReal (hv a (by simp))]
      simp

theorem zipWith_mul_one {α : Type*} (v : List ℝ) (c : List α) (h : v.length = c.length) : (List.zipWith (fun a (_ : α) => a * (1 : ℝ)) v c) = v := by
  induction v generalizing c with
  | nil => simp
  | cons a v ih =>
    cases c with
    | nil => simp at h
    | cons y c => simp only [List.zipWith_cons_cons, mul_one, List.cons.injEq, true_and]; simpa using ih c (by simpa using h)

theorem pickTrimmed_prob {α : Type*} [MeasurableSpace α] (K : Kernel α α) [IsMarkovKernel K] (v : List ℝ) (hv : ∀ a ∈ v, 0 ≤ a) (c : List α)
    (hl : v.length = c.length) (hs : v.sum = 1) : IsProbabilityMeasure (pickTrimmed K v c) := by
  obtain ⟨h1, h2⟩ := pickTrimmed_integral K v hv c (fun _ => 1) tame_one
  simp only [integral_const, probReal_univ, smul_eq_mul, one_mul] at h2
  have e := zipWith_mul_one v c hl
  simp only [mul_one] at e h2
  rw [e, hs] at h2
  constructor
  have := measureReal_def (pickTrimmed K v c) Set.univ
  rw [h2] at this
  rw [← ENNReal.toReal_eq_one_iff]
  exact this.symm

/-- A history with the given log-likelihoods, temperatures and evidences. -/
noncomputable def colsOf (h : List Stage) : Cols 1 (List Unit) List :=
  { u := [], x := [], logdetj := [], logl := h.map (fun s => s.logl.map fin), logp := [], logw := [], blobs := [],
    iter := [], logz := h.map (fun s => fin s.logz), calls := [], steps := [], efficiency := [], ess := [],
    accept := [], beta := h.map (fun s => fin s.beta) }

theorem colsOf_holds (h : List Stage) : Holds (colsOf h) h := ⟨rfl, rfl, rfl⟩

/-- Only the columns read matter. -/
theorem choose_same {d : ℕ} {B : Type} {p q : Cols d (List B) List} {h : List Stage} (hp : Holds p h) (hq : Holds q h) :
    (∀ β, weightsAt p β = weightsAt q β) ∧ ∀ m nEff fuel, chooseBeta p m nEff fuel = chooseBeta q m nEff fuel := by
  have h1 : ∀ β, computeLogwLogz p β = computeLogwLogz q β := holds_same hp hq
  have h2 : ∀ β, weightsAt p β = weightsAt q β := fun β => by unfold weightsAt; rw [h1]
  have h3 : ∀ m β, essAt p m β = essAt q m β := fun m β => by unfold essAt; rw [h2]
  have h4 : ∀ m nEff fuel a b, bisect p m nEff fuel a b = bisect q m nEff fuel a b := by
    intro m nEff fuel
    induction fuel with
    | zero => intro a b; rfl
    | succ n ih => intro a b; simp only [bisect, h3, ih]
  refine ⟨h2, fun m nEff fuel => ?_⟩
  have e1 : p.beta = q.beta := hp.2.1.trans hq.2.1.symm
  have e2 : p.logz = q.logz := hp.2.2.trans hq.2.2.symm
  simp only [chooseBeta, e1, e2, h1, h3, h4]

/-- The code's choices from one iteration of prior draws. -/
theorem first_choice {n : ℕ} (hn : 0 < n) (l : Fin 2 → ℝ) (N : ℝ) (hN : 0 < N) (e : ℝ) (he : e ≤ 1) (x : Fin n → Fin 2) :
    ∃ (fuel : ℕ) (b z : ℝ) (ess : F) (w : List F) (tr : Trimmed (Fin 2)) (v : List ℝ),
      let past := colsOf (stagesOf l (fun _ : Fin 1 => (0 : ℝ)) (fun _ => 0) fun _ => x)
      chooseBeta past .ess (fin N) fuel = .ok (fin b, fin z, ess) ∧ weightsAt past (fin b) = .ok w ∧
        trimWeights (allParticles fun _ : Fin 1 => x) (normalize w) (fin e) 1000 = .ok tr ∧ tr.weights = v.map fin ∧
        (∀ a ∈ v, 0 ≤ a) ∧ v.sum = 1 ∧ v.length = tr.samples.length ∧ (N < 1 → b = 1) := by
  have hr := stagesOf_rect l (fun _ : Fin 1 => (0 : ℝ)) (fun _ => 0) (fun _ => x) one_pos hn
  have hh : Holds (colsOf (stagesOf l (fun _ : Fin 1 => (0 : ℝ)) (fun _ => 0) fun _ => x)) _ := colsOf_holds _
  obtain ⟨fuel, hf⟩ := C22_beta_search _ _ n hr hh .ess N hN 0 0 zero_le_one (by simp [stagesOf])
  obtain ⟨b, z, hc, hcase⟩ := hf fuel le_rfl
  obtain ⟨c, hc0, hw⟩ := weightsAt_fin _ _ n hr hh b
  have htot := totalWeight_pos hr b
  have hsum : ((weights (stagesOf l (fun _ : Fin 1 => (0 : ℝ)) (fun _ => 0) fun _ => x) b).map (c * ·)).sum =
      c * totalWeight (stagesOf l (fun _ : Fin 1 => (0 : ℝ)) (fun _ => 0) fun _ => x) b := by
    exact (sum_map_mul_left' _ c id).trans (by rw [List.map_id]; rfl)
  have hpos : ∀ a ∈ (weights (stagesOf l (fun _ : Fin 1 => (0 : ℝ)) (fun _ => 0) fun _ => x) b).map (c * ·), 0 ≤ a := by
    intro a ha
    simp only [weights, List.map_map, List.mem_map] at ha
    obtain ⟨a', -, rfl⟩ := ha
    simp only [Function.comp, weight, stagesOf_mixture]
    refine mul_nonneg hc0.le (div_nonneg (Real.exp_pos _).le (div_nonneg (Finset.sum_nonneg fun _ _ => (div_pos (Real.exp_pos _) (Real.exp_pos _)).le) (by positivity)))
  have hW : IsWeights ((weights (stagesOf l (fun _ : Fin 1 => (0 : ℝ)) (fun _ => 0) fun _ => x) b).map (c * ·)) :=
    ⟨hpos, by rw [hsum]; positivity⟩
  have hWn := hW.normalize
  obtain ⟨r, kept, g1, g2, g3, g4, g5, g6, -⟩ := C118_trim_mass (allParticles fun _ : Fin 1 => x) _ hWn (by
    simp [weights, stagesOf_allLogl]) e he 1000 (by norm_num)
  refine ⟨fuel, b, z, _, _, r, kept.map fun q => q.2 / (kept.map (·.2)).sum, hc, hw, ?_, by rw [g4, List.map_map]; rfl, ?_, ?_, by rw [g3]; simp, fun hN1 => ?_⟩
  · rw [normalize_fin _ hW.2.ne']
    exact g1
  · intro a ha
    obtain ⟨q, hq, rfl⟩ := List.mem_map.mp ha
    exact div_nonneg (hWn.1 _ (List.of_mem_zip (g2.subset hq)).2) g6.le
  · have : (kept.map fun q => q.2 / (kept.map (·.2)).sum) = kept.map fun q => (kept.map (·.2)).sum⁻¹ * q.2 := by
      apply List.map_congr_left
      intro q _
      rw [div_eq_inv_mul]
    rw [this, sum_map_mul_left', inv_mul_cancel₀ g6.ne']
  · have hone : ∀ c, 1 ≤ sizeAt .ess (stagesOf l (fun _ : Fin 1 => (0 : ℝ)) (fun _ => 0) fun _ => x) c := by
      intro c
      refine one_le_ess ⟨?_, totalWeight_pos hr c⟩
      intro a ha
      obtain ⟨a', -, rfl⟩ := List.mem_map.mp ha
      simp only [weight, stagesOf_mixture]
      exact div_nonneg (Real.exp_pos _).le (div_nonneg (Finset.sum_nonneg fun _ _ => (div_pos (Real.exp_pos _) (Real.exp_pos _)).le) (by positivity))
    rcases hcase with ⟨-, h, -⟩ | ⟨h, -⟩ | ⟨-, -, h, -⟩
    · linarith [hone 0]
    · exact h
    · linarith [hone 1]

/-- Two iterations on two points: draws from the prior, then everything as the code does it, with moves by `K` at the chosen temperature. -/
theorem two_stage_run (π : Measure (Fin 2)) [IsProbabilityMeasure π] (l : Fin 2 → ℝ) (K : ℝ → Kernel (Fin 2) (Fin 2)) [∀ c, IsMarkovKernel (K c)]
    (N : ℕ → ℝ) (hN : ∀ n, 0 < n → 0 < N n) (e : ℝ) (he : e ≤ 1) :
    ∃ (P : ∀ n, Measure ((Fin n → Fin 2) × (Fin n → Fin 2))) (_ : ∀ n, IsProbabilityMeasure (P n))
      (X : ∀ n, Fin 2 → ℕ → ((Fin n → Fin 2) × (Fin n → Fin 2)) → Fin 2)
      (past : ∀ n, ((Fin n → Fin 2) × (Fin n → Fin 2)) → Cols 1 (List Unit) List) (b z : ∀ n, ((Fin n → Fin 2) × (Fin n → Fin 2)) → Fin 2 → ℝ),
      (∀ n t i, Measurable (X n t i)) ∧
      (∀ n, 0 < n → ∀ ω, Holds (past n ω) (stagesOf l (b n ω) (z n ω) fun t (i : Fin n) => X n t i ω)) ∧
      (∀ t : Fin 2, t.val < 1 → ∀ n, 0 < n → (∀ ω, b n ω t = 0 ∧ z n ω t = 0) ∧
        DrawnGiven (P n) (earlier n (X n) t) (fun i : Fin n => X n t i) fun f _ => ∫ x, f x ∂π) ∧
      (∀ t : Fin 2, 1 ≤ t.val → ∀ n, 0 < n → ∃ (w : _ → List F) (tr : _ → Trimmed (Fin 2)) (v : _ → List ℝ),
        (∀ ω, (∃ fuel ess, chooseBeta (before (past n ω) t) .ess (fin (N n)) fuel = .ok (fin (b n ω t), fin (z n ω t), ess)) ∧
          weightsAt (before (past n ω) t) (fin (b n ω t)) = .ok (w ω) ∧
          trimWeights (allParticles fun (r : Fin t.val) (i : Fin n) => X n (r.castLE t.2.le) i ω) (normalize (w ω)) (fin e) 1000 = .ok (tr ω) ∧
          (tr ω).weights = (v ω).map fin) ∧
        DrawnGiven (P n) (earlier n (X n) t) (fun i : Fin n => X n t i) fun f ω =>
          (List.zipWith (fun a y => a * ∫ y', f y' ∂(K (b n ω t) y)) (v ω) (tr ω).samples).sum) ∧
      ∀ n, 0 < n → N n < 1 → ∀ ω, b n ω 1 = 1 := by
  have hex : ∀ (n : ℕ) (x : Fin n → Fin 2), ∃ (fuel : ℕ) (b z : ℝ) (ess : F) (w : List F) (tr : Trimmed (Fin 2)) (v : List ℝ), 0 < n →
      let past := colsOf (stagesOf l (fun _ : Fin 1 => (0 : ℝ)) (fun _ => 0) fun _ => x)
      chooseBeta past .ess (fin (N n)) fuel = .ok (fin b, fin z, ess) ∧ weightsAt past (fin b) = .ok w ∧
        trimWeights (allParticles fun _ : Fin 1 => x) (normalize w) (fin e) 1000 = .ok tr ∧ tr.weights = v.map fin ∧
        (∀ a ∈ v, 0 ≤ a) ∧ v.sum = 1 ∧ v.length = tr.samples.length ∧ (N n < 1 → b = 1) := by
    intro n x
    by_cases hn : 0 < n
    · obtain ⟨fuel, b, z, ess, w, tr, v, h⟩ := first_choice hn l (N n) (hN n hn) e he x
      exact ⟨fuel, b, z, ess, w, tr, v, fun _ => h⟩
    · exact ⟨0, 0, 0, nan, [], ⟨[], [], []⟩, [], fun h => absurd h hn⟩
  choose fuel b1 z1 ess w tr v hall using hex
  let q : ∀ n, (Fin n → Fin 2) → Measure (Fin 2) := fun n x => if 0 < n then pickTrimmed (K (b1 n x)) (v n x) (tr n x).samples else π
  have hq : ∀ n x, IsProbabilityMeasure (q n x) := by
    intro n x
    simp only [q]
    split_ifs with h
    · obtain ⟨-, -, -, -, a1, a2, a3, -⟩ := hall n x h
      exact pickTrimmed_prob _ _ a1 _ a3 a2
    · infer_instance
  let κ : ∀ n, Kernel (Fin n → Fin 2) (Fin n → Fin 2) := fun n => Kernel.ofFunOfCountable fun x => Measure.pi fun _ => q n x
  have hκ : ∀ n, IsMarkovKernel (κ n) := fun n => ⟨fun x => by
    change IsProbabilityMeasure (Measure.pi fun _ => q n x)
    infer_instance⟩
  let μ : ∀ n, Measure (Fin n → Fin 2) := fun n => Measure.pi fun _ => π
  let P : ∀ n, Measure ((Fin n → Fin 2) × (Fin n → Fin 2)) := fun n => μ n ⊗ₘ κ n
  let X : ∀ n, Fin 2 → ℕ → ((Fin n → Fin 2) × (Fin n → Fin 2)) → Fin 2 := fun n t i ω =>
    if h : i < n then (if t = 0 then ω.1 else ω.2) ⟨i, h⟩ else 0
  let b : ∀ n, ((Fin n → Fin 2) × (Fin n → Fin 2)) → Fin 2 → ℝ := fun n ω => ![0, b1 n ω.1]
  let z : ∀ n, ((Fin n → Fin 2) × (Fin n → Fin 2)) → Fin 2 → ℝ := fun n ω => ![0, z1 n ω.1]
  let past : ∀ n, ((Fin n → Fin 2) × (Fin n → Fin 2)) → Cols 1 (List Unit) List := fun n ω =>
    colsOf (stagesOf l (b n ω) (z n ω) fun t (i : Fin n) => X n t i ω)
  have hX0 : ∀ n (i : Fin n), X n 0 i = fun ω => ω.1 i := by
    intro n i
    funext ω
    simp [X]
  have hX1 : ∀ n (i : Fin n), X n 1 i = fun ω => ω.2 i := by
    intro n i
    funext ω
    simp [X]
  have hX : ∀ n t i, Measurable (X n t i) := fun n t i => measurable_of_countable _
  have hp : ∀ n, 0 < n → ∀ ω, Holds (past n ω) (stagesOf l (b n ω) (z n ω) fun t (i : Fin n) => X n t i ω) := fun n _ ω => colsOf_holds _
  refine ⟨P, fun n => inferInstance, X, past, b, z, hX, hp, ?_, ?_, fun n hn hN1 ω => (hall n ω.1 hn).2.2.2.2.2.2.2 hN1⟩
  · intro t ht n hn
    have ht0 : t = 0 := Fin.ext (by simpa using ht)
    subst ht0
    refine ⟨fun ω => ⟨rfl, rfl⟩, ?_⟩
    have eb : earlier n (X n) 0 = ⊥ := by simp [earlier]
    rw [eb]
    simp only [hX0]
    have hfst : ∀ h : (Fin n → Fin 2) → ℝ, ∫ ω, h ω.1 ∂(P n) = ∫ x, h x ∂(μ n) := by
      intro h
      rw [← Measure.fst_compProd (μ n) (κ n), Measure.fst, integral_map measurable_fst.aemeasurable (measurable_of_countable h).aestronglyMeasurable]
    have e1 : ∀ h : Fin 2 → ℝ, ∀ i, ∫ x : Fin n → Fin 2, h (x i) ∂(μ n) = ∫ y, h y ∂π := by
      intro h i
      have := (measurePreserving_eval (fun _ : Fin n => π) i).map_eq
      conv_rhs => rw [← this]
      rw [integral_map (measurable_pi_apply i).aemeasurable (measurable_of_countable h).aestronglyMeasurable]
    intro f g hf hg
    refine ⟨fun i => ?_, fun i j hij => ?_⟩
    · rw [condExp_bot, hfst fun x => f (x i), e1]
    · rw [condExp_bot, hfst fun x => f (x i) * g (x j)]
      have hI := iIndepFun_pi (μ := fun _ : Fin n => π) (X := fun _ y => y) fun _ => measurable_id.aemeasurable
      have hI2 := (hI.indepFun hij).comp hf.1 hg.1
      have := hI2.integral_fun_mul_eq_mul_integral (hf.1.comp (measurable_pi_apply i)).aestronglyMeasurable
        (hg.1.comp (measurable_pi_apply j)).aestronglyMeasurable
      have e2 : ∫ x : Fin n → Fin 2, f (x i) * g (x j) ∂(μ n) = (∫ x, f x ∂π) * ∫ x, g x ∂π := by
        rw [← e1 f i, ← e1 g j]
        exact this
      rw [e2]
  · intro t ht n hn
    have ht1 : t = 1 := Fin.ext (by have := t.2; change t.val = 1; omega)
    subst ht1
    have eX : ∀ ω, (fun (r : Fin 1) (i : Fin n) => X n (r.castLE (by norm_num : 1 ≤ 2)) i ω) = fun _ => ω.1 := by
      intro ω
      funext r i
      rw [Subsingleton.elim r 0]
      exact congrFun (hX0 n i) ω
    refine ⟨fun ω => w n ω.1, fun ω => tr n ω.1, fun ω => v n ω.1, fun ω => ?_, ?_⟩
    · have hh := before_holds (hp n hn ω) 1
      rw [stagesOf_take _ _ _ _ 1 (by norm_num)] at hh
      have e : stagesOf l (fun r : Fin 1 => b n ω (r.castLE (by norm_num))) (fun r => z n ω (r.castLE (by norm_num)))
          (fun r (i : Fin n) => X n (r.castLE (by norm_num)) i ω) = stagesOf l (fun _ : Fin 1 => (0 : ℝ)) (fun _ => 0) fun _ => ω.1 := by
        congr 1
        · funext r; rw [Subsingleton.elim r 0]; rfl
        · funext r; rw [Subsingleton.elim r 0]; rfl
        · exact eX ω
      rw [e] at hh
      obtain ⟨s1, s2⟩ := choose_same hh (colsOf_holds _)
      obtain ⟨a1, a2, a3, a4, -⟩ := hall n ω.1 hn
      refine ⟨⟨fuel n ω.1, ess n ω.1, (s2 _ _ _).trans a1⟩, (s1 _).trans a2, ?_, a4⟩
      have := eX ω
      change trimWeights (allParticles fun (r : Fin 1) (i : Fin n) => X n (r.castLE (by norm_num : 1 ≤ 2)) i ω) _ _ _ = _
      rw [this]
      exact a3
    · have ee : earlier n (X n) 1 = MeasurableSpace.comap Prod.fst inferInstance := by
        have : earlier n (X n) 1 = ⨆ i : Fin n, MeasurableSpace.comap (X n 0 i) inferInstance := by
          unfold earlier
          apply le_antisymm
          · refine iSup_le fun r => iSup_le fun hr => ?_
            have : r = 0 := by fin_cases r <;> simp_all
            rw [this]
          · exact le_iSup_of_le 0 (le_iSup_of_le (by decide) le_rfl)
        rw [this]
        simp only [hX0]
        change _ = MeasurableSpace.comap Prod.fst (⨆ i : Fin n, MeasurableSpace.comap (fun x : Fin n → Fin 2 => x i) inferInstance)
        rw [MeasurableSpace.comap_iSup]
        simp only [MeasurableSpace.comap_comp]
        rfl
      rw [ee]
      simp only [hX1]
      have hd := drawn_pi (μ n) (q n) (κ n) (fun a => rfl) fun f _ => measurable_of_countable _
      intro f g hf hg
      have em : ∀ f, Tame f → ∀ ω : (Fin n → Fin 2) × (Fin n → Fin 2), (List.zipWith (fun a y => a * ∫ y', f y' ∂(K (b n ω 1) y)) (v n ω.1)
          (tr n ω.1).samples).sum = ∫ y, f y ∂(q n ω.1) := by
        intro f hf ω
        simp only [q, if_pos hn]
        exact (pickTrimmed_integral (K (b1 n ω.1)) (v n ω.1) (hall n ω.1 hn).2.2.2.2.1 (tr n ω.1).samples f hf).2.symm
      obtain ⟨d1, d2⟩ := hd f g hf hg
      refine ⟨fun i => (d1 i).trans (.of_forall fun ω => (em f hf ω).symm), fun i j hij => (d2 i j hij).trans (.of_forall fun ω => ?_)⟩
      change (∫ y, f y ∂(q n ω.1)) * (∫ y, g y ∂(q n ω.1)) = _
      rw [← em f hf ω, ← em g hg ω]

/-- A fair coin. -/
noncomputable def coin : Measure (Fin 2) := (2⁻¹ : ENNReal) • (Measure.dirac 0 + Measure.dirac 1)

instance : IsProbabilityMeasure coin := ⟨by
  simp only [coin, Measure.smul_apply, Measure.add_apply, measure_univ, smul_eq_mul]
  rw [one_add_one_eq_two, ENNReal.inv_mul_cancel two_ne_zero ENNReal.ofNat_ne_top]⟩

theorem coin_integral (f : Fin 2 → ℝ) : ∫ y, f y ∂coin = (f 0 + f 1) / 2 := by
  rw [coin, integral_smul_measure, integral_add_measure Integrable.of_finite Integrable.of_finite, integral_dirac, integral_dirac]
  simp
  ring

theorem tame_two (f : Fin 2 → ℝ) : Tame f :=
  ⟨measurable_of_countable _, max |f 0| |f 1|, fun x => by fin_cases x <;> simp⟩

theorem count_sum (xs : List (Fin 2)) : (xs.map ![(1 : ℝ), 0]).sum = xs.count 0 := by
  induction xs with
  | nil => simp
  | cons y xs ih => fin_cases y <;> simp [ih, add_comm]

/-- **C132, the full claim fails.** The weights are trimmed as in the code. Two points with equal prior mass, the second a thousand times as likely as the
first; temperatures 0 and 1; the moves leave every particle where it is, so every distribution is invariant. However many particles there are, the second
iteration (but for a probability that vanishes) holds none at the first point, whose posterior probability is 1/1001: the average of its indicator does not converge to
its posterior expectation. -/
theorem C132_trimming_biased : ∃ (l : Fin 2 → ℝ) (P : ∀ n, Measure ((Fin n → Fin 2) × (Fin n → Fin 2))) (_ : ∀ n, IsProbabilityMeasure (P n))
    (X : ∀ n, Fin 2 → ℕ → ((Fin n → Fin 2) × (Fin n → Fin 2)) → Fin 2)
    (past : ∀ n, ((Fin n → Fin 2) × (Fin n → Fin 2)) → Cols 1 (List Unit) List) (z : ∀ n, ((Fin n → Fin 2) × (Fin n → Fin 2)) → Fin 2 → ℝ),
    Tame l ∧ (∀ μ, Kernel.Invariant (Kernel.id : Kernel (Fin 2) (Fin 2)) μ) ∧ (∀ n t i, Measurable (X n t i)) ∧
    (∀ n, 0 < n → ∀ ω, Holds (past n ω) (stagesOf l ![0, 1] (z n ω) fun t (i : Fin n) => X n t i ω)) ∧
    (∀ t : Fin 2, t.val < 1 → (![0, 1] : Fin 2 → ℝ) t = 0 ∧ ∀ n, 0 < n → (∀ ω, z n ω t = 0) ∧
      DrawnGiven (P n) (earlier n (X n) t) (fun i : Fin n => X n t i) fun f _ => ∫ x, f x ∂coin) ∧
    (∀ t : Fin 2, 1 ≤ t.val → ∀ n, 0 < n → ∃ (w : _ → List F) (tr : _ → Trimmed (Fin 2)) (v : _ → List ℝ),
      (∀ ω, (∃ lw, computeLogwLogz (before (past n ω) t) (fin ((![0, 1] : Fin 2 → ℝ) t)) = .ok (lw, fin (z n ω t))) ∧
        weightsAt (before (past n ω) t) (fin ((![0, 1] : Fin 2 → ℝ) t)) = .ok (w ω) ∧
        trimWeights (allParticles fun (r : Fin t.val) (i : Fin n) => X n (r.castLE t.2.le) i ω) (normalize (w ω)) (fin 0.99) 1000 = .ok (tr ω) ∧
        (tr ω).weights = (v ω).map fin) ∧
      DrawnGiven (P n) (earlier n (X n) t) (fun i : Fin n => X n t i) fun f ω =>
        (List.zipWith (fun a y => a * ∫ y', f y' ∂((Kernel.id : Kernel (Fin 2) (Fin 2)) y)) (v ω) (tr ω).samples).sum) ∧
    InProb P (fun n ω => (∑ i : Fin n, (![1, 0] : Fin 2 → ℝ) (X n 1 i ω)) / n) 0 ∧
    ∫ x, (![1, 0] : Fin 2 → ℝ) x ∂(tempered coin l 1) = 1 / 1001 ∧
    ¬ ∀ f, Tame f → InProb P (fun n ω => (∑ i : Fin n, f (X n 1 i ω)) / n) (∫ x, f x ∂(tempered coin l 1)) := by
  let l : Fin 2 → ℝ := ![0, Real.log 1000]
  have hl := tame_two l
  have hl1 : Real.exp (l 1) = 1000 := Real.exp_log (by norm_num)
  obtain ⟨P, hP, X, past, b, z, hX, hp, hwarm, hstep, hb1⟩ := two_stage_run coin l (fun _ => Kernel.id) (fun _ => 1 / 2) (fun _ _ => by norm_num) 0.99 (by norm_num)
  have hb : ∀ n, 0 < n → ∀ ω, b n ω = ![0, 1] := by
    intro n hn ω
    funext t
    fin_cases t
    · exact ((hwarm 0 (by norm_num) n hn).1 ω).1
    · exact hb1 n hn (by norm_num) ω
  have hp' : ∀ n, 0 < n → ∀ ω, Holds (past n ω) (stagesOf l ![0, 1] (z n ω) fun t (i : Fin n) => X n t i ω) := by
    intro n hn ω
    rw [← hb n hn ω]
    exact hp n hn ω
  have hstep' : ∀ t : Fin 2, 1 ≤ t.val → ∀ n, 0 < n → ∃ (w : _ → List F) (tr : _ → Trimmed (Fin 2)) (v : _ → List ℝ),
      (∀ ω, (∃ lw, computeLogwLogz (before (past n ω) t) (fin ((![0, 1] : Fin 2 → ℝ) t)) = .ok (lw, fin (z n ω t))) ∧
        weightsAt (before (past n ω) t) (fin ((![0, 1] : Fin 2 → ℝ) t)) = .ok (w ω) ∧
        trimWeights (allParticles fun (r : Fin t.val) (i : Fin n) => X n (r.castLE t.2.le) i ω) (normalize (w ω)) (fin 0.99) 1000 = .ok (tr ω) ∧
        (tr ω).weights = (v ω).map fin) ∧
      DrawnGiven (P n) (earlier n (X n) t) (fun i : Fin n => X n t i) fun f ω =>
        (List.zipWith (fun a y => a * ∫ y', f y' ∂((Kernel.id : Kernel (Fin 2) (Fin 2)) y)) (v ω) (tr ω).samples).sum := by
    intro t ht n hn
    obtain ⟨w, tr, v, h1, h2⟩ := hstep t ht n hn
    have ht1 : t = 1 := Fin.ext (by have := t.2; change t.val = 1; omega)
    subst ht1
    refine ⟨w, tr, v, fun ω => ?_, h2⟩
    obtain ⟨⟨fuel, ess, c1⟩, c2, c3, c4⟩ := h1 ω
    rw [hb n hn ω] at c1 c2
    refine ⟨?_, c2, c3, c4⟩
    rcases chooseBeta_cases c1 with ⟨k1, -⟩ | h
    · have := (before_last (hp' n hn ω) 0 (by norm_num)).1
      have k2 := (getAt_neg_one this).symm.trans k1
      simp at k2
    · exact h
  -- the second iteration
  have hlim : InProb P (fun n ω => (∑ i : Fin n, (![1, 0] : Fin 2 → ℝ) (X n 1 i ω)) / n) 0 := by
    have hA0 : InProb P (fun n ω => (∑ i : Fin n, (![1, 0] : Fin 2 → ℝ) (X n 0 i ω)) / n) (1 / 2) := by
      refine drawn_inProb (fun n => earlier n (X n) 0) P (fun n => earlier_le n (X n) (hX n) 0) (fun n i => X n 0 i) (fun n i => hX n 0 i)
        (fun n f _ => ∫ x, f x ∂coin) (fun n hn => (hwarm 0 (by norm_num) n hn).2) _ (tame_two _) _ (inProb_const (.of_forall fun n ω => ?_))
      rw [coin_integral]
      simp
    have hex : ∀ n, ∃ (w : _ → List F) (tr : _ → Trimmed (Fin 2)) (v : _ → List ℝ), 0 < n →
      (∀ ω, (∃ lw, computeLogwLogz (before (past n ω) (1 : Fin 2)) (fin ((![0, 1] : Fin 2 → ℝ) 1)) = .ok (lw, fin (z n ω 1))) ∧
        weightsAt (before (past n ω) (1 : Fin 2)) (fin ((![0, 1] : Fin 2 → ℝ) 1)) = .ok (w ω) ∧
        trimWeights (allParticles fun (r : Fin (1 : Fin 2).val) (i : Fin n) => X n (r.castLE (1 : Fin 2).2.le) i ω) (normalize (w ω)) (fin 0.99) 1000 = .ok (tr ω) ∧
        (tr ω).weights = (v ω).map fin) ∧
      DrawnGiven (P n) (earlier n (X n) 1) (fun i : Fin n => X n 1 i) fun f ω =>
        (List.zipWith (fun a y => a * ∫ y', f y' ∂((Kernel.id : Kernel (Fin 2) (Fin 2)) y)) (v ω) (tr ω).samples).sum := by
      intro n
      by_cases hn : 0 < n
      · obtain ⟨w, tr, v, h⟩ := hstep' 1 (by norm_num) n hn
        exact ⟨w, tr, v, fun _ => h⟩
      · exact ⟨fun _ => [], fun _ => ⟨[], [], []⟩, fun _ => [], fun h => absurd h hn⟩
    choose w tr v hall using hex
    refine drawn_inProb (fun n => earlier n (X n) 1) P (fun n => earlier_le n (X n) (hX n) 1) (fun n i => X n 1 i) (fun n i => hX n 1 i)
      (fun n f ω => (List.zipWith (fun a y => a * ∫ y', f y' ∂((Kernel.id : Kernel (Fin 2) (Fin 2)) y)) (v n ω) (tr n ω).samples).sum)
      (fun n hn => (hall n hn).2) _ (tame_two _) _ ?_
    refine inProb_of_close (ι := Unit) (Y := fun _ => fun n ω => (∑ i : Fin n, (![1, 0] : Fin 2 → ℝ) (X n 0 i ω)) / n) (c := fun _ => 1 / 2) (fun _ => hA0)
      fun ε hε => ⟨1 / 10, by norm_num, ?_⟩
    filter_upwards [eventually_ge_atTop 10] with n hn10 ω hω
    have hn : 0 < n := by omega
    have hnr : (0 : ℝ) < n := by exact_mod_cast hn
    obtain ⟨-, c2, c3, -⟩ := (hall n hn).1 ω
    set xs : List (Fin 2) := allParticles fun (r : Fin 1) (i : Fin n) => X n (r.castLE (by norm_num : 1 ≤ 2)) i ω with hxs
    have hxs' : xs = List.ofFn fun i : Fin n => X n 0 i ω := by
      rw [hxs]
      simp [allParticles]
    have hlen : xs.length = n := by rw [hxs']; simp
    have hcnt : ∑ i : Fin n, (![1, 0] : Fin 2 → ℝ) (X n 0 i ω) = xs.count 0 := by
      rw [← count_sum, hxs', List.map_ofFn, List.sum_ofFn]
      rfl
    have hcond : 2 * xs.count 0 ≤ 3 * xs.count 1 := by
      have h1 := hω ()
      simp only [hcnt] at h1
      have h2 := (abs_lt.mp h1).2
      have h3 : (xs.count 0 : ℝ) / n < 6 / 10 := by linarith
      rw [div_lt_iff₀ hnr] at h3
      have h4 := count_two xs
      rw [hlen] at h4
      have h5 : (xs.count 0 : ℝ) + xs.count 1 = n := by exact_mod_cast h4
      have : (2 : ℝ) * xs.count 0 ≤ 3 * xs.count 1 := by linarith
      exact_mod_cast this
    have hh := before_holds (hp' n hn ω) 1
    rw [stagesOf_take _ _ _ _ 1 (by norm_num)] at hh
    have hr := stagesOf_rect l (fun r : Fin 1 => (![0, 1] : Fin 2 → ℝ) (r.castLE (by norm_num : 1 ≤ 2))) (fun r : Fin 1 => z n ω (r.castLE (by norm_num : 1 ≤ 2)))
      (fun r (i : Fin n) => X n (r.castLE (by norm_num : 1 ≤ 2)) i ω) one_pos hn
    obtain ⟨c, hc0, hw⟩ := weightsAt_fin _ _ n hr hh 1
    have c2' : weightsAt (before (past n ω) 1) (fin 1) = .ok (w n ω) := c2
    rw [hw] at c2'
    have hwt : weights (stagesOf l (fun r : Fin 1 => (![0, 1] : Fin 2 → ℝ) (r.castLE (by norm_num : 1 ≤ 2))) (fun r : Fin 1 => z n ω (r.castLE (by norm_num : 1 ≤ 2)))
        (fun r (i : Fin n) => X n (r.castLE (by norm_num : 1 ≤ 2)) i ω)) 1 = xs.map fun y => Real.exp (l y) := by
      rw [weights, stagesOf_allLogl, List.map_map]
      apply List.map_congr_left
      intro y _
      have hz0 : z n ω 0 = 0 := ((hwarm 0 (by norm_num) n hn).1 ω).2
      simp only [Function.comp, weight, stagesOf_mixture]
      simp [hz0]
    rw [hwt, List.map_map (l := xs)] at c2'
    have c2'' := Except.ok.inj c2'
    have hne : (xs.map ((c * ·) ∘ fun y => Real.exp (l y))).sum ≠ 0 := by
      apply ne_of_gt
      refine List.sum_pos _ (fun a ha => ?_) (fun h => ?_)
      · obtain ⟨y, -, rfl⟩ := List.mem_map.mp ha
        exact mul_pos hc0 (Real.exp_pos _)
      · have := congrArg List.length h
        simp [hlen] at this
        omega
    have c3' : trimWeights xs (normalize (w n ω)) (fin 0.99) 1000 = .ok (tr n ω) := c3
    rw [← c2'', normalize_fin _ hne, List.map_map (l := xs)] at c3'
    have hS : 0 < (xs.map ((c * ·) ∘ fun y => Real.exp (l y))).sum := by
      refine lt_of_le_of_ne (List.sum_nonneg fun a ha => ?_) hne.symm
      obtain ⟨y, -, rfl⟩ := List.mem_map.mp ha
      exact (mul_pos hc0 (Real.exp_pos _)).le
    have hdrop := trim_drops xs _ (div_pos (mul_pos hc0 (Real.exp_pos _)) hS) (by
      simp only [Function.comp, hl1]
      simp [l]
      ring) (by omega) hcond _ c3'
    have hzero : ∀ (v : List ℝ) (s : List (Fin 2)), (∀ y ∈ s, y = 1) →
        (List.zipWith (fun a y => a * ∫ y', (![1, 0] : Fin 2 → ℝ) y' ∂((Kernel.id : Kernel (Fin 2) (Fin 2)) y)) v s).sum = 0 := by
      intro v
      induction v with
      | nil => intro s _; simp
      | cons a v ih =>
        intro s hs
        cases s with
        | nil => simp
        | cons y s =>
          have hy : y = 1 := hs y (by simp)
          subst hy
          rw [List.zipWith_cons_cons, List.sum_cons, ih s fun y hy => hs y (by simp [hy]), Kernel.id_apply, integral_dirac]
          simp
    rw [hzero _ _ hdrop]
    simpa using hε
  have htrue : ∫ x, (![1, 0] : Fin 2 → ℝ) x ∂(tempered coin l 1) = 1 / 1001 := by
    rw [tempered_integral coin l hl, evidenceAt, coin_integral, coin_integral]
    simp only [mul_one, hl1]
    simp [l]
    norm_num
  refine ⟨l, P, hP, X, past, z, hl, fun μ => by simp [Kernel.Invariant], hX, hp', fun t ht => ?_, hstep', hlim, htrue, fun hcon => ?_⟩
  · have ht0 : t = 0 := Fin.ext (by simpa using ht)
    subst ht0
    exact ⟨rfl, fun n hn => ⟨fun ω => ((hwarm 0 ht n hn).1 ω).2, (hwarm 0 ht n hn).2⟩⟩
  · have h1 := hcon _ (tame_two ![1, 0])
    rw [htrue] at h1
    have h2 := (h1 (1 / 2002) (by norm_num)).add (hlim (1 / 2002) (by norm_num))
    rw [add_zero] at h2
    have h3 : ∀ n, 1 ≤ P n {ω | (1 / 2002 : ℝ) ≤ |(∑ i : Fin n, (![1, 0] : Fin 2 → ℝ) (X n 1 i ω)) / n - 1 / 1001|} +
        P n {ω | (1 / 2002 : ℝ) ≤ |(∑ i : Fin n, (![1, 0] : Fin 2 → ℝ) (X n 1 i ω)) / n - 0|} := by
      intro n
      rw [← measure_univ (μ := P n)]
      refine (measure_mono ?_).trans (measure_union_le _ _)
      intro ω _
      by_contra hno
      simp only [Set.mem_union, Set.mem_setOf_eq, not_or, not_le] at hno
      obtain ⟨a1, a2⟩ := hno
      rw [abs_lt] at a1 a2
      linarith [a1.1, a2.2]
    have := ge_of_tendsto' h2 h3
    simp at this

/-- The hypotheses of C133 are met: a fair coin as prior, log-likelihoods 0 and 1, the temperature of the second iteration chosen so that the effective
sample size is nine tenths of the particles, trimming at 0.99, and moves that with probability 1/2 draw a fresh particle from the tempered posterior. -/
example : ∃ (P : ∀ n, Measure ((Fin n → Fin 2) × (Fin n → Fin 2)))
    (X : ∀ n, Fin 2 → ℕ → ((Fin n → Fin 2) × (Fin n → Fin 2)) → Fin 2) (b : ∀ n, ((Fin n → Fin 2) × (Fin n → Fin 2)) → Fin 2 → ℝ),
    NearlyWithin P (fun n ω => (∑ i : Fin n, (![1, 0] : Fin 2 → ℝ) (X n 1 i ω)) / n - ∫ x, (![1, 0] : Fin 2 → ℝ) x ∂(tempered coin ![0, 1] (b n ω 1)))
      (2 * (1 - 0.99) * (1 + 2 * Real.exp (4 * 1) * pileUp 1 ((1 : Fin 2).val - 1)) * 1) := by
  let l : Fin 2 → ℝ := ![0, 1]
  have hl := tame_two l
  have hpos : ∀ β, 0 < evidenceAt coin l β := fun β => evidence_pos coin l _ (exp_integrable coin l hl _)
  have hpr : ∀ β, IsProbabilityMeasure (tempered coin l β) := fun β => tempered_prob coin l _ (exp_integrable coin l hl _) (hpos _)
  have hM : ∀ c, IsMarkovKernel (lazy (tempered coin l c)) := fun c => lazy_markov _
  have hint : ∀ (f : Fin 2 → ℝ) c, ∫ x, f x ∂(tempered coin l c) = (f 0 + f 1 * Real.exp c) / (1 + Real.exp c) := by
    intro f c
    rw [tempered_integral coin l hl, evidenceAt, coin_integral, coin_integral]
    have := Real.exp_pos c
    simp [l]
    field_simp
  have hcont : ∀ f : Fin 2 → ℝ, ContinuousOn (fun c => ∫ x, f x ∂(tempered coin l c)) (Set.Icc 0 1) := by
    intro f
    simp only [hint]
    exact Continuous.continuousOn (Continuous.div (by fun_prop) (by fun_prop) fun c => by positivity)
  have hlazy : ∀ (f : Fin 2 → ℝ) c y, ∫ y', f y' ∂(lazy (tempered coin l c) y) = (f y + ∫ x, f x ∂(tempered coin l c)) / 2 := by
    intro f c y
    change ∫ y', f y' ∂((2⁻¹ : ENNReal) • (Measure.dirac y + tempered coin l c)) = _
    rw [integral_smul_measure, integral_add_measure Integrable.of_finite Integrable.of_finite, integral_dirac]
    simp
    ring
  obtain ⟨P, hP, X, past, b, z, hX, hp, hwarm, hstep, -⟩ := two_stage_run coin l (fun c => lazy (tempered coin l c)) (fun n => 0.9 * n)
    (fun n hn => by have : (0 : ℝ) < n := by exact_mod_cast hn
                    positivity) 0.99 (by norm_num)
  have := C133_adaptive (Θ := Unit) (by norm_num : 0 < 2) coin l hl.1 1 (fun y => by fin_cases y <;> simp [l]) 1 one_pos
    (Set.finite_univ.totallyBounded) (fun _ c _ => lazy (tempered coin l c)) (fun _ c _ _ _ => lazy_invariant _) (fun _ f _ ε hε => by
      obtain ⟨δ, hδ, h⟩ := Metric.uniformContinuousOn_iff.mp (isCompact_Icc.uniformContinuousOn_of_continuous (hcont f)) ε hε
      refine ⟨δ, hδ, fun c c' _ _ h0 h1 h0' h1' hd _ y => ?_⟩
      have := h c ⟨h0, h1⟩ c' ⟨h0', h1'⟩ (by rwa [Real.dist_eq])
      rw [Real.dist_eq] at this
      rw [hlazy, hlazy, show ∀ a p q : ℝ, (a + p) / 2 - (a + q) / 2 = (p - q) / 2 from fun a p q => by ring, abs_div, abs_two]
      linarith [abs_nonneg (∫ x, f x ∂(tempered coin l c) - ∫ x, f x ∂(tempered coin l c'))])
    0.99 (by norm_num) P X hX past b z (fun _ _ _ => ()) hp hwarm (fun t ht n hn => by
      obtain ⟨w, tr, v, h1, h2⟩ := hstep t ht n hn
      exact ⟨w, tr, v, fun ω => ⟨⟨_, _, _, _, (h1 ω).1.choose_spec.choose_spec⟩, (h1 ω).2⟩, h2⟩) 1 zero_le_one le_rfl
  exact ⟨P, X, b, this.2.1 1 _ 1 (tame_two _) fun y => by fin_cases y <;> simp⟩

end Poco
