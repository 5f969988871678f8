import Verif.Model.Sampler
import Verif.Spec.Reweight
import Verif.Props.Ess
import Verif.Props.Particles
import Verif.Props.Trim
import Verif.Lemmas.Mcmc
import Mathlib.Topology.UniformSpace.HeineCantor
import Mathlib.Topology.Algebra.Monoid
import Mathlib.Analysis.SpecialFunctions.ExpDeriv

/-! Reweighting: properties C21, C22, C23. -/

namespace Poco
open F Spec Classical

variable {d : ℕ} {B Φ : Type}

/-! ### effective sizes -/

/-- The effective size named by the `metric` option. -/
noncomputable def Spec.sizeAt (m : Metric) (h : List Stage) (β : ℝ) : ℝ :=
  match m with
  | .ess => Spec.essAt h β
  | .uss => Spec.ussAt h β

theorem weights_isWeights {h : List Stage} {n : ℕ} (hr : Rect h n) (β : ℝ) : IsWeights (weights h β) := by
  refine ⟨?_, totalWeight_pos hr β⟩
  unfold weights
  simp only [List.mem_map]
  rintro x ⟨l, -, rfl⟩
  exact (weight_pos h hr.1 β l).le

theorem Spec.IsWeights.scale {w : List ℝ} (h : IsWeights w) {c : ℝ} (hc : 0 < c) : IsWeights (w.map (c * ·)) := by
  refine ⟨?_, ?_⟩
  · simp only [List.mem_map]
    rintro x ⟨y, hy, rfl⟩
    exact mul_nonneg hc.le (h.1 y hy)
  · rw [list_sum_map_mul]; exact mul_pos hc h.2

theorem distinct_scale (c : ℝ) (hc : c ≠ 0) (w : List ℝ) (k : ℕ) : distinct (w.map (c * ·)) k = distinct w k := by
  unfold distinct
  rw [list_sum_map_mul, List.map_map]
  congr 1
  apply List.map_congr_left
  intro x _
  simp only [Function.comp]
  rw [mul_div_mul_left _ _ hc]

/-- The sampler's scaled weights: a positive multiple of the importance weights. -/
theorem weightsAt_fin (past : Cols d (List B) List) (h : List Stage) (n : ℕ) (hr : Rect h n) (hh : Holds past h) (β : ℝ) :
    ∃ c : ℝ, 0 < c ∧ weightsAt past (fin β) = .ok (((weights h β).map (c * ·)).map fin) := by
  have hne := hr.allLogl_ne
  set L := (allLogl h).map fun l => Real.log (weight h β l) - Real.log (totalWeight h β) with hL
  obtain ⟨m, hm, -, -⟩ := max_fin L (by simpa [hL] using hne)
  refine ⟨Real.exp (-(Real.log (totalWeight h β) + m)), Real.exp_pos _, ?_⟩
  simp only [weightsAt, computeLogwLogz_fin past h n hr hh β, bind, Except.bind, pure, Except.pure, if_true]
  have e1 : ((allLogl h).map fun l => fin (Real.log (weight h β l) - Real.log (totalWeight h β))) = L.map fin := by
    simp [hL]
  rw [e1, hm]
  simp only [Except.ok.injEq, List.map_map, weights, hL]
  apply List.map_congr_left
  intro l _
  simp only [Function.comp, fin_sub, exp_fin]
  congr 1
  rw [show Real.log (weight h β l) - Real.log (totalWeight h β) - m
    = -(Real.log (totalWeight h β) + m) + Real.log (weight h β l) by ring, Real.exp_add,
    Real.exp_log (weight_pos h hr.1 β l)]

theorem sizeOf_fin (m : Metric) (w : List ℝ) (hs : w.sum ≠ 0) :
    sizeOf m (w.map fin) = fin (match m with
      | .ess => ess w
      | .uss => distinct w w.length) := by
  cases m with
  | ess => simp [sizeOf, effectiveSampleSize_fin w hs]
  | uss =>
    have h1 := uniqueSampleSize_fin w hs w.length
    have h2 : uniqueSampleSize (w.map fin) none = uniqueSampleSize (w.map fin) (some w.length) := by
      simp [uniqueSampleSize, normalize]
    simp [sizeOf, h2, h1, distinct]

theorem essAt_fin (past : Cols d (List B) List) (h : List Stage) (n : ℕ) (hr : Rect h n) (hh : Holds past h) (m : Metric)
    (β : ℝ) : essAt past m (fin β) = .ok (fin (sizeAt m h β)) := by
  obtain ⟨c, hc, hw⟩ := weightsAt_fin past h n hr hh β
  have hp := ((weights_isWeights hr β).scale hc).2.ne'
  simp only [essAt, hw, bind, Except.bind, pure, Except.pure, Except.ok.injEq]
  rw [sizeOf_fin m _ hp]
  cases m with
  | ess => simp [sizeAt, Spec.essAt, ess_scale c hc.ne']
  | uss => simp only [sizeAt, Spec.ussAt, distinct_scale c hc.ne']; simp [weights]

/-! ### continuity -/

theorem continuous_list_sum {α : Type*} (l : List α) (f : α → ℝ → ℝ) (hf : ∀ a ∈ l, Continuous (f a)) :
    Continuous fun x => (l.map fun a => f a x).sum := by
  induction l with
  | nil => simpa using continuous_const
  | cons a l ih =>
    simp only [List.map_cons, List.sum_cons]
    exact (hf a (by simp)).add (ih fun b hb => hf b (by simp [hb]))

theorem continuous_weight (h : List Stage) (hne : h ≠ []) (l : ℝ) : Continuous fun β => weight h β l := by
  unfold weight
  exact (Real.continuous_exp.comp (continuous_const.mul continuous_id)).div_const _

theorem continuous_sizeAt (m : Metric) {h : List Stage} {n : ℕ} (hr : Rect h n) : Continuous (sizeAt m h) := by
  have hw := fun l => continuous_weight h hr.1 l
  have hsum : Continuous fun β => (weights h β).sum := continuous_list_sum _ _ fun l _ => hw l
  have hpos : ∀ β, (weights h β).sum ≠ 0 := fun β => (weights_isWeights hr β).2.ne'
  cases m with
  | ess =>
    unfold sizeAt Spec.essAt ess
    refine (hsum.pow 2).div ?_ fun β => (list_sumsq_pos _ (hpos β)).ne'
    simp only [weights, List.map_map]
    exact continuous_list_sum (allLogl h) (fun l β => weight h β l ^ 2) fun l _ => (hw l).pow 2
  | uss =>
    unfold sizeAt Spec.ussAt distinct
    have : (fun β => ((weights h β).map fun x => 1 - (1 - x / (weights h β).sum) ^ (allLogl h).length).sum)
        = fun β => ((allLogl h).map fun l => 1 - (1 - weight h β l / (weights h β).sum) ^ (allLogl h).length).sum := by
      funext β
      simp only [weights, List.map_map]
      rfl
    rw [this]
    exact continuous_list_sum (allLogl h) (fun l β => 1 - (1 - weight h β l / (weights h β).sum) ^ (allLogl h).length)
      fun l _ => continuous_const.sub ((continuous_const.sub ((hw l).div hsum hpos)).pow _)

/-! ### C21 -/

theorem getAt_neg_one {α : Type} {l : List α} {a : α} (h : l.getLast? = some a) : getAt l (-1) = .ok a := by
  have hne : l ≠ [] := by rintro rfl; simp at h
  have hl : 0 < l.length := List.length_pos_iff.mpr hne
  have : pyGet? l (-1) = some a := by
    unfold pyGet?
    rw [if_neg (by omega), if_pos (by omega), ← h, List.getLast?_eq_getElem?]
    congr 1
    omega
  simp [getAt, this]

theorem mid_fin (a b : ℝ) : (fin b + fin a) * fin 0.5 = fin ((a + b) / 2) := by
  rw [fin_add, fin_mul]; congr 1; ring

theorem bisect_between (past : Cols d (List B) List) (m : Metric) (nEff : F) (fuel : ℕ) :
    ∀ (a b : ℝ), a ≤ b → ∀ r, bisect past m nEff fuel (fin a) (fin b) = .ok r → ∃ β : ℝ, r.1 = fin β ∧ a ≤ β ∧ β ≤ b := by
  induction fuel with
  | zero => intro a b _ r hr; simp [bisect] at hr
  | succ n ih =>
    intro a b hab r hr
    simp only [bisect, mid_fin] at hr
    cases he : Poco.essAt past m (fin ((a + b) / 2)) with
    | error x => rw [he] at hr; simp at hr
    | ok s =>
      rw [he] at hr
      simp only at hr
      have h1 : a ≤ (a + b) / 2 := by linarith
      have h2 : (a + b) / 2 ≤ b := by linarith
      split at hr
      · simp only [Except.ok.injEq] at hr; subst hr
        exact ⟨_, rfl, h1, h2⟩
      · split at hr
        · obtain ⟨β, e, h3, h4⟩ := ih _ _ h1 r hr
          exact ⟨β, e, h3, h4.trans h2⟩
        · obtain ⟨β, e, h3, h4⟩ := ih _ _ h2 r hr
          exact ⟨β, e, h1.trans h3, h4⟩

/-- C21: whatever the history contains (also NaN or infinite values), whatever the metric, target and number of
bisections: the chosen temperature lies between the previous one and 1. -/
theorem C21_beta_step (past : Cols d (List B) List) (m : Metric) (nEff : F) (fuel : ℕ) (b : ℝ) (hb : b ≤ 1)
    (hlast : past.beta.getLast? = some (fin b)) (beta logz ess : F)
    (h : chooseBeta past m nEff fuel = .ok (beta, logz, ess)) :
    ∃ β : ℝ, beta = fin β ∧ b ≤ β ∧ β ≤ 1 := by
  simp only [chooseBeta] at h
  obtain ⟨bp, h1, h⟩ := bind_ok h
  obtain ⟨ep, h2, h⟩ := bind_ok h
  obtain ⟨em, h3, h⟩ := bind_ok h
  have hbp : bp = fin b := by
    have : getAt past.beta (-1) = .ok (fin b) := getAt_neg_one hlast
    rw [this] at h1; simpa using h1.symm
  subst hbp
  split at h
  · obtain ⟨z, h4, h⟩ := bind_ok h
    simp only [pure, Except.pure, Except.ok.injEq, Prod.mk.injEq] at h
    exact ⟨b, h.1.symm, le_refl _, hb⟩
  · split at h
    · obtain ⟨z, h4, h⟩ := bind_ok h
      simp only [pure, Except.pure, Except.ok.injEq, Prod.mk.injEq] at h
      exact ⟨1, h.1.symm, hb, le_refl _⟩
    · rename_i hn1 hn2
      obtain ⟨⟨β, s⟩, h4, h⟩ := bind_ok h
      obtain ⟨z, h5, h⟩ := bind_ok h
      simp only [pure, Except.pure, Except.ok.injEq, Prod.mk.injEq] at h
      obtain ⟨β', e, h6, h7⟩ := bisect_between past m nEff fuel b 1 hb _ h4
      exact ⟨β', h.1.symm.trans e, h6, h7⟩

/-- C21, the end point: a temperature of 1 is kept. -/
theorem C21_stays_one (past : Cols d (List B) List) (m : Metric) (nEff : F) (fuel : ℕ)
    (hlast : past.beta.getLast? = some (fin 1)) (beta logz ess : F)
    (h : chooseBeta past m nEff fuel = .ok (beta, logz, ess)) : beta = fin 1 := by
  obtain ⟨β, rfl, h1, h2⟩ := C21_beta_step past m nEff fuel 1 le_rfl hlast beta logz ess h
  rw [le_antisymm h2 h1]

/-! ### C22 -/

/-- The bisection on a finite history: if the size is at least the target at the left end and below it at the right end,
and `n` halvings bring the interval below a modulus of continuity, `n + 1` rounds are enough. -/
theorem bisect_terminates (past : Cols d (List B) List) (h : List Stage) (k : ℕ) (hr : Rect h k) (hh : Holds past h)
    (m : Metric) (N : ℝ) (δ : ℝ) (a₀ b₀ : ℝ) (hb0 : b₀ ≤ 1)
    (hδ : ∀ x ∈ Set.Icc a₀ b₀, ∀ y ∈ Set.Icc a₀ b₀, |x - y| < δ → |sizeAt m h x - sizeAt m h y| < 0.01 * N) (n : ℕ) :
    ∀ (a b : ℝ), a₀ ≤ a → a ≤ b → b ≤ b₀ → b - a < δ * 2 ^ n → N ≤ sizeAt m h a → sizeAt m h b < N →
    ∀ fuel, n + 1 ≤ fuel →
    ∃ β : ℝ, bisect past m (fin N) fuel (fin a) (fin b) = .ok (fin β, fin (sizeAt m h β)) ∧
      a < β ∧ β < b ∧ |sizeAt m h β - N| < 0.01 * N := by
  induction n with
  | zero =>
    intro a b ha hab hb hlen h1 h2 fuel hf
    obtain ⟨f, rfl⟩ : ∃ f, fuel = f + 1 := ⟨fuel - 1, by omega⟩
    have hlt : a < b := lt_of_le_of_ne hab (by rintro rfl; linarith)
    have hlen' : b - a < δ := by simpa using hlen
    have ma : (a + b) / 2 ∈ Set.Icc a₀ b₀ := ⟨by linarith, by linarith⟩
    have k1 := hδ _ ma a ⟨ha, by linarith⟩ (by rw [abs_of_nonneg (by linarith)]; linarith)
    have k2 := hδ _ ma b ⟨by linarith, hb⟩ (by rw [abs_of_nonpos (by linarith)]; linarith)
    rw [abs_lt] at k1 k2
    have k3 : |sizeAt m h ((a + b) / 2) - N| < 0.01 * N := by rw [abs_lt]; constructor <;> linarith
    refine ⟨(a + b) / 2, ?_, by linarith, by linarith, k3⟩
    simp only [bisect, mid_fin, essAt_fin past h k hr hh]
    rw [if_pos]
    left
    simpa using k3
  | succ n ih =>
    intro a b ha hab hb hlen h1 h2 fuel hf
    obtain ⟨f, rfl⟩ : ∃ f, fuel = f + 1 := ⟨fuel - 1, by omega⟩
    have hlt : a < b := lt_of_le_of_ne hab (by rintro rfl; linarith)
    simp only [bisect, mid_fin, essAt_fin past h k hr hh]
    by_cases k3 : |sizeAt m h ((a + b) / 2) - N| < 0.01 * N
    · refine ⟨(a + b) / 2, ?_, by linarith, by linarith, k3⟩
      rw [if_pos]
      left
      simpa using k3
    · rw [if_neg]
      · rw [pow_succ] at hlen
        by_cases k4 : sizeAt m h ((a + b) / 2) < N
        · rw [if_pos (by simpa using k4)]
          obtain ⟨β, e, g1, g2, g3⟩ := ih a ((a + b) / 2) ha (by linarith) (by linarith) (by linarith) h1 k4 f (by omega)
          exact ⟨β, e, g1, by linarith, g3⟩
        · rw [if_neg (by simpa using k4)]
          obtain ⟨β, e, g1, g2, g3⟩ := ih ((a + b) / 2) b (by linarith) (by linarith) (by linarith) (by linarith)
            (not_lt.mp k4) h2 f (by omega)
          exact ⟨β, e, by linarith, g2, g3⟩
      · rintro (g | g)
        · exact k3 (by simpa using g)
        · have : (a + b) / 2 = 1 := by simpa [feq] using g
          linarith

/-- C22. -/
theorem C22_beta_search (past : Cols d (List B) List) (h : List Stage) (k : ℕ) (hr : Rect h k) (hh : Holds past h)
    (m : Metric) (N : ℝ) (hN : 0 < N) (b z : ℝ) (hb : b ≤ 1) (hlast : h.getLast?.map (fun s => (s.beta, s.logz)) = some (b, z)) :
    ∃ fuel₀, ∀ fuel, fuel₀ ≤ fuel → ∃ β logz : ℝ,
      chooseBeta past m (fin N) fuel = .ok (fin β, fin logz, fin (sizeAt m h β)) ∧
      ((β = b ∧ sizeAt m h b ≤ N ∧ logz = z) ∨
       (β = 1 ∧ N < sizeAt m h b ∧ N ≤ sizeAt m h 1 ∧ logz = Real.log (totalWeight h 1 / (allLogl h).length)) ∨
       (b < β ∧ β < 1 ∧ sizeAt m h 1 < N ∧ N < sizeAt m h b ∧ |sizeAt m h β - N| < 0.01 * N ∧
        logz = Real.log (totalWeight h β / (allLogl h).length))) := by
  obtain ⟨s, hs, hs2⟩ := Option.map_eq_some_iff.mp hlast
  simp only [Prod.mk.injEq] at hs2
  have l1 : getAt past.beta (-1) = .ok (fin b) := by
    apply getAt_neg_one
    rw [hh.2.1, List.getLast?_map, hs]; simp [hs2.1]
  have l2 : getAt past.logz (-1) = .ok (fin z) := by
    apply getAt_neg_one
    rw [hh.2.2, List.getLast?_map, hs]; simp [hs2.2]
  have start : ∀ fuel, chooseBeta past m (fin N) fuel = (if sizeAt m h b ≤ N then .ok (fin b, fin z, fin (sizeAt m h b))
      else if N ≤ sizeAt m h 1 then .ok (fin 1, fin (Real.log (totalWeight h 1 / (allLogl h).length)), fin (sizeAt m h 1))
      else do
        let (beta, ess) ← bisect past m (fin N) fuel (fin b) (fin 1)
        let (_, logz) ← computeLogwLogz past beta
        return (beta, logz, ess)) := by
    intro fuel
    simp only [chooseBeta, l1, l2, essAt_fin past h k hr hh, computeLogwLogz_fin past h k hr hh, bind, Except.bind, pure,
      Except.pure, ge_iff_le, F.fin_le]
  by_cases c1 : sizeAt m h b ≤ N
  · exact ⟨0, fun fuel _ => ⟨b, z, by rw [start, if_pos c1], .inl ⟨rfl, c1, rfl⟩⟩⟩
  by_cases c2 : N ≤ sizeAt m h 1
  · exact ⟨0, fun fuel _ => ⟨1, _, by rw [start, if_neg c1, if_pos c2], .inr (.inl ⟨rfl, not_le.mp c1, c2, rfl⟩)⟩⟩
  push Not at c1 c2
  have huc : UniformContinuousOn (sizeAt m h) (Set.Icc b 1) :=
    isCompact_Icc.uniformContinuousOn_of_continuous (continuous_sizeAt m hr).continuousOn
  rw [Metric.uniformContinuousOn_iff] at huc
  obtain ⟨δ, hδ, hu⟩ := huc (0.01 * N) (by positivity)
  obtain ⟨n, hn⟩ := pow_unbounded_of_one_lt ((1 - b) / δ) (one_lt_two)
  refine ⟨n + 1, fun fuel hf => ?_⟩
  obtain ⟨β, e, g1, g2, g3⟩ := bisect_terminates past h k hr hh m N δ b 1 le_rfl
    (fun x hx y hy hxy => by simpa [Real.dist_eq] using hu x hx y hy (by simpa [Real.dist_eq] using hxy))
    n b 1 le_rfl hb le_rfl (by rw [div_lt_iff₀ hδ] at hn; linarith) c1.le c2 fuel hf
  refine ⟨β, _, ?_, .inr (.inr ⟨g1, g2, c2, c1, g3, rfl⟩)⟩
  rw [start, if_neg (not_le.mpr c1), if_neg (not_le.mpr c2), e]
  simp [computeLogwLogz_fin past h k hr hh, bind, Except.bind, pure, Except.pure]

/-- A store holding the given stages (other columns empty). -/
def storeOf (h : List Stage) : Cols 1 (List Unit) List :=
  { u := [], x := [], logdetj := [], logl := h.map (fun s => s.logl.map fin), logp := [], logw := [], blobs := [],
    iter := [], logz := h.map (fun s => fin s.logz), calls := [], steps := [], efficiency := [], ess := [],
    accept := [], beta := h.map (fun s => fin s.beta) }

/-- The hypotheses are met, with a target strictly between the two end points (the bisection branch). -/
example : ∃ (h : List Stage), Rect h 2 ∧ Holds (storeOf h) h ∧
    h.getLast?.map (fun s => (s.beta, s.logz)) = some (0, 0) ∧ sizeAt .ess h 1 < 1.5 ∧ 1.5 < sizeAt .ess h 0 := by
  refine ⟨[⟨0, 0, [0, 10]⟩], ⟨by simp, by norm_num, by simp⟩, ⟨rfl, rfl, rfl⟩, by simp, ?_, ?_⟩
  · have h1 : (10 : ℝ) + 1 ≤ Real.exp 10 := Real.add_one_le_exp 10
    simp [sizeAt, Spec.essAt, ess, weights, allLogl, weight, mixture]
    rw [div_lt_iff₀ (by positivity)]
    nlinarith
  · simp [sizeAt, Spec.essAt, ess, weights, allLogl, weight, mixture]
    norm_num

/-! ### C23 -/

theorem distinct_ge_one {w : List ℝ} (h : IsWeights w) {k : ℕ} (hk : 1 ≤ k) : 1 ≤ distinct w k := by
  have := uss_mono w h hk
  rw [uss_one w h.2.ne'] at this
  exact this

/-- The decision on the new target. -/
theorem dynamicNEff_direction (nActive nEff : ℕ) (r u : ℝ) (h1 : 1 ≤ u) (h2 : u ≤ nActive) :
    ∃ n', dynamicNEff nActive nEff (fin r) (fin u) = .ok n' ∧
      (u < 0.95 * r * nActive → nEff ≤ n') ∧ (1.05 * r * nActive < u → n' ≤ nEff) ∧
      (0.95 * r * nActive ≤ u → u ≤ 1.05 * r * nActive → n' = nEff) := by
  have ha : (0 : ℝ) < nActive := by linarith
  have c1 : (fin u < F.ofNat nActive * (fin 0.95 * fin r)) ↔ u < 0.95 * r * nActive := by
    simp only [F.ofNat, fin_mul, F.fin_lt]
    rw [show (nActive : ℝ) * (0.95 * r) = 0.95 * r * nActive by ring]
  have c2 : (fin u > F.ofNat nActive * minimum (fin 1.05 * fin r) (fin 1)) ↔ 1.05 * r * nActive < u := by
    simp only [F.ofNat, fin_mul, minimum_fin, gt_iff_lt, F.fin_lt]
    rcases le_total (1.05 * r) 1 with g | g
    · rw [min_eq_left g, show (nActive : ℝ) * (1.05 * r) = 1.05 * r * nActive by ring]
    · rw [min_eq_right g, mul_one]
      constructor
      · intro; linarith
      · intro hc; nlinarith
  unfold dynamicNEff
  by_cases g1 : u < 0.95 * r * nActive
  · rw [if_pos (c1.mpr g1)]
    have hr : 0 < r := by
      by_contra hc; push Not at hc; nlinarith
    refine ⟨⌊(nActive : ℝ) / u * nEff⌋₊, by simp only [F.ofNat, fin_div _ _ (by linarith : u ≠ 0), fin_mul, pyInt], fun _ => ?_, fun g => ?_, fun g => ?_⟩
    · rw [Nat.le_floor_iff (by positivity)]
      have : 1 ≤ (nActive : ℝ) / u := by rwa [le_div_iff₀ (by linarith), one_mul]
      nlinarith [Nat.cast_nonneg (α := ℝ) nEff]
    · nlinarith
    · linarith
  · rw [if_neg (fun hc => g1 (c1.mp hc))]
    by_cases g2 : 1.05 * r * nActive < u
    · rw [if_pos (c2.mpr g2)]
      refine ⟨⌊u / (nActive : ℝ) * nEff⌋₊, by simp only [F.ofNat, fin_div _ _ ha.ne', fin_mul, pyInt], fun g => absurd g g1, fun _ => ?_, fun _ g => ?_⟩
      · apply Nat.floor_le_of_le
        have : u / nActive ≤ 1 := by rwa [div_le_one ha]
        nlinarith [Nat.cast_nonneg (α := ℝ) nEff]
      · linarith
    · rw [if_neg (fun hc => g2 (c2.mp hc))]
      exact ⟨nEff, rfl, fun g => absurd g g1, fun g => absurd g g2, fun _ _ => rfl⟩

/-- C23, for an arbitrary weight vector. -/
theorem C23_dynamic_target (w : List ℝ) (hw : IsWeights w) (nActive nEff : ℕ) (ha : 1 ≤ nActive) (r : ℝ) :
    let u := expectedDistinct (fun j : Fin w.length => w.get j / w.sum) nActive
    ∃ n', dynamicNEff nActive nEff (fin r) (uniqueSampleSize (w.map fin) (some nActive)).2 = .ok n' ∧
      (u < 0.95 * r * nActive → nEff ≤ n') ∧ (1.05 * r * nActive < u → n' ≤ nEff) ∧
      (0.95 * r * nActive ≤ u → u ≤ 1.05 * r * nActive → n' = nEff) := by
  intro u
  obtain ⟨v, h1, h2, h3, h4, -⟩ := C02_uss w hw nActive ha
  rw [h1]
  have : u = v := h2.symm
  rw [this]
  exact dynamicNEff_direction nActive nEff r v h3 h4

/-- C23, as `_reweight` applies it to the importance weights of a finite history. -/
theorem C23_reweight (e : SamplerEnv d B Φ) (s : Sampler d B Φ) (h : List Stage) (k : ℕ) (hr : Rect h k)
    (hh : Holds s.particles.past h) (ha : 1 ≤ e.nActive) (r : ℝ) (hdr : e.dynamicRatio = fin r) (β : ℝ) :
    let w := weights h β
    let u := expectedDistinct (fun j : Fin w.length => w.get j / w.sum) e.nActive
    ∃ n', reweightWeights e s (fin β) = .ok (w.map (fun x => fin (x / w.sum)), n') ∧
      (e.dynamic = false → n' = s.nEffective) ∧
      (e.dynamic = true →
        (u < 0.95 * r * e.nActive → s.nEffective ≤ n') ∧ (1.05 * r * e.nActive < u → n' ≤ s.nEffective) ∧
        (0.95 * r * e.nActive ≤ u → u ≤ 1.05 * r * e.nActive → n' = s.nEffective)) := by
  intro w u
  obtain ⟨c, hc, hwt⟩ := weightsAt_fin s.particles.past h k hr hh β
  have hw : IsWeights w := weights_isWeights hr β
  have hn : normalize (((weights h β).map (c * ·)).map fin) = (w.map (· / w.sum)).map fin := by
    rw [normalize_fin _ (hw.scale hc).2.ne', list_sum_map_mul]
    congr 1
    rw [List.map_map]
    apply List.map_congr_left
    intro x _
    simp only [Function.comp]
    rw [mul_div_mul_left _ _ hc.ne']
  have hw1 : (w.map (· / w.sum)).sum = 1 := sum_normalized hw.2.ne'
  have hid : (w.map (· / w.sum)).map (fun x => fin (x / (w.map (· / w.sum)).sum)) = w.map (fun x => fin (x / w.sum)) := by
    rw [hw1]; simp [Function.comp_def]
  have hu := C23_dynamic_target w hw e.nActive s.nEffective ha r
  have hus : uniqueSampleSize ((w.map (· / w.sum)).map fin) (some e.nActive)
      = (w.map (fun x => fin (x / w.sum)), (uniqueSampleSize (w.map fin) (some e.nActive)).2) := by
    rw [uniqueSampleSize_fin _ (by rw [hw1]; norm_num), uniqueSampleSize_fin _ hw.2.ne', hid]
    refine Prod.ext rfl ?_
    simp only
    rw [hw1]
    simp [Function.comp_def]
  simp only [reweightWeights, hwt, bind, Except.bind, pure, Except.pure, hn]
  cases hd : e.dynamic with
  | false => exact ⟨s.nEffective, by simp [Function.comp_def], fun _ => rfl, by simp⟩
  | true =>
    obtain ⟨n', g1, g2⟩ := hu
    refine ⟨n', ?_, by simp, fun _ => g2⟩
    simp only [if_true, hus, hdr, g1]

/-- Concrete histories and settings meet the hypotheses. -/
example : Rect exampleStages 2 ∧ Holds (storeOf exampleStages) exampleStages :=
  ⟨exampleStages_rect, ⟨rfl, rfl, rfl⟩⟩

end Poco
