import Verif.Spec.Balance
import Verif.Lemmas.Balance
import Verif.Props.Mcmc

/-! # C31, C32: detailed balance of the MCMC kernels -/

namespace Poco
open F Spec MeasureTheory ProbabilityTheory
open scoped ENNReal

variable {d : ℕ} {B : Type}

/-! ### one walker through one step of the model -/

/-- Metropolis acceptance probability from the two unnormalised weights. -/
noncomputable def acc (t t' : ℝ≥0∞) : ℝ≥0∞ := min 1 (t' / t)

theorem temperedDensity_ne {b : ℝ} {l p j k : F} (h : temperedDensity b l p j k ≠ 0) :
    ∃ l' p' j' k', l = fin l' ∧ p = fin p' ∧ j = fin j' ∧ k = fin k' := by
  cases l <;> cases p <;> cases j <;> cases k <;> first | exact absurd rfl h | exact ⟨_, _, _, _, rfl, rfl, rfl, rfl⟩

open Classical in
theorem posteriorDensity_eq (e : McmcEnv d B) (ll lp : Pt d → F) (b : ℝ) (θ : Fin d → ℝ) (u x : Pt d) (ld ldf : F)
    (h1 : (u, ldf) = latent e θ) (h2 : e.scaler.inverseRow u = .ok (x, ld)) :
    posteriorDensity e ll lp b θ = if ∀ j, ∃ r, x j = fin r then temperedDensity b (ll x) (lp x) ld ldf else 0 := by
  unfold posteriorDensity
  rw [← h1]
  simp only [h2]

theorem candidate_plain {e : McmcEnv d B} (hbc : BoundaryMild e)
    {fuel : ℕ} {θ : Fin d → ℝ} {c : Walker d B} (h : candidate e fuel (pt θ) = .ok c) :
    c.theta = pt θ ∧ (c.u, c.logdetjFlow) = latent e θ ∧ e.scaler.inverseRow c.u = .ok (c.x, c.logdetj) := by
  refine ⟨?_, ?_, candidate_belongs h⟩ <;>
  · rcases hbc with ⟨hper, href⟩ | ⟨hok, hfin⟩
    · unfold candidate at h
      simp only [hper, href, Option.isSome_none, Bool.or_self, Bool.false_eq_true, if_false] at h
      obtain ⟨⟨x, ld⟩, h1, h⟩ := bind_ok h
      simp only [pure, Except.pure, Except.ok.injEq] at h
      subst h
      rfl
    · obtain ⟨u, ldf, hu⟩ : ∃ (u : Fin d → ℝ) (ldf : F), (if e.kernel.hasFlow then e.flowInv (pt θ) else (pt θ, fin 0))
          = (pt u, ldf) := by
        split
        · obtain ⟨u, hu⟩ := hfin θ
          exact ⟨u, _, Prod.ext hu rfl⟩
        · exact ⟨θ, _, rfl⟩
      obtain ⟨x, ld, hx, -⟩ := C36_inverse_inside e.scaler hok u
      have hnoop := C40_boundary_noop e.scaler hok u _ _ hx fuel
      have hfw : e.scaler.forwardRow (pt x) = .ok (pt u) := by
        obtain ⟨G, Fw, J, h1, h2, h3, h4, h5, h6⟩ := hok.real
        have e1 : Except.ok (pt x, fin ld) = Except.ok (pt (G u), fin (Real.log |(J u).det|)) := hx.symm.trans (h1 u)
        simp only [Except.ok.injEq, Prod.mk.injEq] at e1
        rw [e1.1]
        have e2 := (h5 _ (h4 u)).1
        rw [h6 u] at e2
        exact e2
      unfold candidate at h
      rw [hu] at h
      obtain ⟨⟨x', ld'⟩, h1, h⟩ := bind_ok h
      rw [hx] at h1
      simp only [Except.ok.injEq, Prod.mk.injEq] at h1
      obtain ⟨rfl, rfl⟩ := h1
      simp only [hnoop, hfw] at h
      have hθ : e.kernel.hasFlow = false → pt u = pt θ := by
        intro hk
        rw [hk] at hu
        simp only [Bool.false_eq_true, if_false, Prod.mk.injEq] at hu
        exact hu.1.symm
      split at h
      · obtain ⟨u1, g1, h⟩ := bind_ok h
        simp only [Except.ok.injEq] at g1
        subst g1
        obtain ⟨⟨x2, ld2⟩, g2, h⟩ := bind_ok h
        simp only [pure, Except.pure, Except.ok.injEq] at h
        subst h
        first
          | (show (if e.kernel.hasFlow then pt θ else pt u) = pt θ
             cases hk : e.kernel.hasFlow with
             | false => simpa using hθ hk
             | true => simp)
          | (show (pt u, ldf) = latent e θ
             rw [← hu]; rfl)
      · simp only [pure, Except.pure, Except.ok.injEq] at h
        subst h
        first
          | rfl
          | (show (pt u, ldf) = latent e θ
             rw [← hu]; rfl)

/-- The exponent when everything is a real number. -/
theorem exponent_real (e : McmcEnv d B) (b : ℝ) (hβ : e.beta = fin b) (mu : Pt d) (w p : Walker d B) (A A' : ℝ)
    (hA : if e.kernel.isPcn then tFactor e mu w.theta = fin A ∧ tFactor e mu p.theta = fin A' else A = 0 ∧ A' = 0)
    (hnf : e.kernel.hasFlow = false → w.logdetjFlow = fin 0 ∧ p.logdetjFlow = fin 0)
    {l q j k l' q' j' k' : ℝ}
    (w1 : w.logl = fin l) (w2 : w.logp = fin q) (w3 : w.logdetj = fin j) (w4 : w.logdetjFlow = fin k)
    (p1 : p.logl = fin l') (p2 : p.logp = fin q') (p3 : p.logdetj = fin j') (p4 : p.logdetjFlow = fin k') :
    metropolisExponent e mu w p = fin ((b * l' + q' + j' + k' - A') - (b * l + q + j + k - A)) := by
  unfold metropolisExponent
  rw [hβ, w1, w2, w3, p1, p2, p3]
  cases hk : e.kernel with
  | ppcn =>
    rw [hk] at hA
    simp only [Kern.isPcn, if_true] at hA
    rw [hA.1, hA.2, w4, p4]
    simp only [fin_mul, fin_sub, fin_add, fin_inj]
    ring
  | prwm =>
    rw [hk] at hA
    simp only [Kern.isPcn, Bool.false_eq_true, if_false] at hA
    rw [w4, p4, hA.1, hA.2]
    simp only [fin_mul, fin_sub, fin_add, fin_inj]
    ring
  | pcn =>
    rw [hk] at hA hnf
    simp only [Kern.isPcn, if_true] at hA
    obtain ⟨f1, f2⟩ := hnf rfl
    rw [w4, fin_inj] at f1
    rw [p4, fin_inj] at f2
    rw [hA.1, hA.2]
    simp only [fin_mul, fin_sub, fin_add, fin_inj]
    rw [f1, f2]
    ring
  | rwm =>
    rw [hk] at hA hnf
    simp only [Kern.isPcn, Bool.false_eq_true, if_false] at hA
    obtain ⟨f1, f2⟩ := hnf rfl
    rw [w4, fin_inj] at f1
    rw [p4, fin_inj] at f2
    simp only [fin_mul, fin_sub, fin_add, fin_inj]
    rw [f1, f2, hA.1, hA.2]
    ring

/-- The exponent when the proposal's flow Jacobian is NaN or `-inf`. -/
theorem exponent_flow_bad (e : McmcEnv d B) (mu : Pt d) (w p : Walker d B) (hf : e.kernel.hasFlow = true)
    (hbase : ∃ r, p.logl * e.beta - w.logl * e.beta + p.logp - w.logp + p.logdetj - w.logdetj = fin r)
    (hp : Bad p.logdetjFlow) : Bad (metropolisExponent e mu w p) := by
  obtain ⟨r, hr⟩ := hbase
  unfold metropolisExponent
  rw [hr]
  have h0 : Bad (fin r + p.logdetjFlow) := by
    rcases hp with h | h <;> rw [h]
    · left; rfl
    · right; rfl
  cases hk : e.kernel with
  | ppcn => exact ((h0.sub _).sub _).add _
  | prwm => exact h0.sub _
  | pcn => rw [hk] at hf; cases hf
  | rwm => rw [hk] at hf; cases hf

theorem acc_le (t t' : ℝ≥0∞) : acc t t' ≤ 1 := min_le_left _ _

theorem ofReal_lt_acc {r x y : ℝ} (hr : 0 ≤ r) :
    ENNReal.ofReal r < acc (ENNReal.ofReal (Real.exp x)) (ENNReal.ofReal (Real.exp y)) ↔ r < min 1 (Real.exp (y - x)) := by
  unfold acc
  rw [← ENNReal.ofReal_div_of_pos (Real.exp_pos x), ← Real.exp_sub, lt_min_iff, lt_min_iff,
    ENNReal.ofReal_lt_one, ENNReal.ofReal_lt_ofReal_iff (Real.exp_pos _)]

/-- Where a walker goes in one step: to the proposed point if the uniform number is below the Metropolis ratio of the
densities (each divided by the reference density `exp A`), else nowhere. -/
theorem step_moves (e : McmcEnv d B) (ll lp : Pt d → F) (bb : Pt d → B) (hrow : RowWise e ll lp bb)
    (hbc : BoundaryMild e) (b : ℝ) (hβ : e.beta = fin b) (hb : 0 ≤ b)
    (hll : ∀ x, ll x ≠ pinf) (hfl : ∀ p, (e.flowInv p).2 ≠ pinf) (mu : Pt d) (A : (Fin d → ℝ) → ℝ)
    (hA : if e.kernel.isPcn then ∀ θ, tFactor e mu (pt θ) = fin (A θ) else A = fun _ => 0)
    {fuel : ℕ} {rnd : ℕ → Draw d} {i : ℕ} {st st' : McmcState d B} (h : mcmcStep e fuel rnd i st = .ok st')
    (hmu : st.mu = mu) {k : ℕ} {w : Walker d B} {θ θ' : Fin d → ℝ} {r : ℝ} (hw : st.walkers[k]? = some w)
    (hs : StandsAt e ll lp w θ) (hpos : posteriorDensity e ll lp b θ ≠ 0)
    (hprop : propose e st.sigma st.mu w (rnd k) = pt θ') (hr : (rnd k).rand = fin r) (hr0 : 0 ≤ r) :
    ∃ w', st'.walkers[k]? = some w' ∧ StandsAt e ll lp w'
      (if ENNReal.ofReal r < acc (posteriorDensity e ll lp b θ * ENNReal.ofReal (Real.exp (-A θ)))
        (posteriorDensity e ll lp b θ' * ENNReal.ofReal (Real.exp (-A θ'))) then θ' else θ) := by
  obtain ⟨cands, props, ev, n, h1, h2, h3, -⟩ := mcmcStep_ok h
  rw [evaluate_rowwise e ll lp bb hrow] at h2
  simp only [Except.ok.injEq, Prod.mk.injEq] at h2
  obtain ⟨h2, -, -⟩ := h2
  obtain ⟨l1, k1⟩ := mapM_eq_ok h1
  obtain ⟨c, hc, hcand⟩ := k1 k (propose e st.sigma st.mu w (rnd k)) (by rw [List.getElem?_mapIdx, hw]; rfl)
  rw [hprop] at hcand
  obtain ⟨c1, c2, c3⟩ := candidate_plain hbc hcand
  obtain ⟨s1, s2, s3, s4, s5⟩ := hs
  -- the proposal, completed
  obtain ⟨p, hp⟩ : ∃ p : Walker d B, p = { c with logl := if validMask lp c then ll c.x else ninf
                                                  logp := if finiteMask c then lp c.x else ninf
                                                  blob := if e.haveBlobs && validMask lp c then some (bb c.x) else none } :=
    ⟨_, rfl⟩
  have hprops : props[k]? = some p := by
    rw [← h2, List.getElem?_map, hc, hp]; rfl
  have hwalk : st'.walkers[k]? = some (if (rnd k).rand < alpha e st.mu w p then p else w) := by
    have hz : (st.walkers.zip props)[k]? = some (w, p) := List.getElem?_zip_eq_some.mpr ⟨hw, hprops⟩
    rw [h3, List.getElem?_mapIdx, hz]
    rfl
  refine ⟨_, hwalk, ?_⟩
  rw [hr, hmu]
  -- the current point
  have dw := posteriorDensity_eq e ll lp b θ w.u w.x w.logdetj w.logdetjFlow s2 s3
  have xw : ∀ j, ∃ r, w.x j = fin r := by
    by_contra hx
    rw [dw, if_neg hx] at hpos
    exact hpos rfl
  rw [if_pos xw] at dw
  rw [dw] at hpos
  obtain ⟨l, q, j, kk, w1, w2, w3, w4⟩ := temperedDensity_ne hpos
  have tw : posteriorDensity e ll lp b θ * ENNReal.ofReal (Real.exp (-A θ))
      = ENNReal.ofReal (Real.exp ((b * l + q + j + kk) - A θ)) := by
    rw [dw, w1, w2, w3, w4]
    show ENNReal.ofReal _ * _ = _
    rw [← ENNReal.ofReal_mul (Real.exp_pos _).le, ← Real.exp_add]
    rfl
  have dp := posteriorDensity_eq e ll lp b θ' c.u c.x c.logdetj c.logdetjFlow c2 c3
  have hnoflow : e.kernel.hasFlow = false → w.logdetjFlow = fin 0 ∧ p.logdetjFlow = fin 0 := by
    intro hf
    have e1 : latent e θ = (pt θ, fin 0) := by unfold latent; rw [hf]; rfl
    have e2 : latent e θ' = (pt θ', fin 0) := by unfold latent; rw [hf]; rfl
    rw [e1] at s2
    rw [e2] at c2
    refine ⟨(Prod.mk.inj s2).2, ?_⟩
    rw [hp]
    exact (Prod.mk.inj c2).2
  by_cases hgood : posteriorDensity e ll lp b θ' = 0
  · -- a proposal of zero density is refused
    have hz : ∀ t, acc t (posteriorDensity e ll lp b θ' * ENNReal.ofReal (Real.exp (-A θ'))) = 0 := by
      intro t; rw [hgood]; simp [acc]
    have hal : alpha e mu w p = fin 0 := by
      by_cases hv : validMask lp c = true
      · have hv' := hv
        unfold validMask at hv'
        rw [Bool.and_eq_true, isfinite_iff] at hv'
        obtain ⟨v1, q', v3⟩ := hv'
        have v1' := v1
        rw [finiteMask_iff] at v1'
        obtain ⟨⟨j', v2⟩, v4⟩ := v1'
        rw [dp, if_pos v4, v2, v3] at hgood
        have pl : p.logl = ll c.x := by rw [hp]; simp [hv]
        cases hl : ll c.x with
        | nan => exact alpha_bad e b hβ hb mu w p (by rw [pl, hl]; left; rfl)
        | ninf => exact alpha_bad e b hβ hb mu w p (by rw [pl, hl]; right; rfl)
        | pinf => exact absurd hl (hll _)
        | fin l' =>
          rw [hl] at hgood pl
          have pq : p.logp = fin q' := by rw [hp]; simp [v1, v3]
          have pj : p.logdetj = fin j' := by rw [hp]; exact v2
          have pk : p.logdetjFlow = c.logdetjFlow := by rw [hp]
          have hflow : e.kernel.hasFlow = true := by
            by_contra hf
            have := (hnoflow (by simpa using hf)).2
            rw [pk] at this
            rw [this] at hgood
            exact absurd hgood (by simp [temperedDensity, Real.exp_pos])
          have hbad : Bad p.logdetjFlow := by
            rw [pk]
            cases hk : c.logdetjFlow with
            | nan => left; rfl
            | ninf => right; rfl
            | pinf =>
              exfalso
              have : c.logdetjFlow = (e.flowInv (pt θ')).2 := by
                have := (Prod.mk.inj (c2.trans (by unfold latent; rw [hflow]; rfl) : _ = (e.flowInv (pt θ')))).2
                exact this
              exact hfl _ (this ▸ hk)
            | fin k' =>
              exfalso
              rw [hk] at hgood
              exact absurd hgood (by simp [temperedDensity, Real.exp_pos])
          have hb' := exponent_flow_bad e mu w p hflow ⟨l' * b - l * b + q' - q + j' - j, by
            rw [hβ, pl, pq, pj, s5, w1, s4, w2, w3]; simp only [fin_mul, fin_sub, fin_add]⟩ hbad
          unfold alpha
          rcases hb' with h | h
          · simp [h, minimum]
          · simp [h]
      · refine alpha_bad e b hβ hb mu w p ?_
        right
        rw [hp]
        simp [hv]
    rw [hal, if_neg (show ¬ fin r < fin 0 by rw [fin_lt]; exact not_lt.mpr hr0), hz, if_neg not_lt_zero]
    exact ⟨s1, s2, s3, s4, s5⟩
  · have xp : ∀ j, ∃ r, c.x j = fin r := by
      by_contra hx
      rw [dp, if_neg hx] at hgood
      exact hgood rfl
    rw [if_pos xp] at dp
    rw [dp] at hgood
    obtain ⟨l', q', j', k', p1, p2, p3, p4⟩ := temperedDensity_ne hgood
    have hfm : finiteMask c = true := (finiteMask_iff c).mpr ⟨⟨j', p3⟩, xp⟩
    have hvm : validMask lp c = true := by
      unfold validMask
      rw [hfm, p2]; rfl
    have tp : posteriorDensity e ll lp b θ' * ENNReal.ofReal (Real.exp (-A θ'))
        = ENNReal.ofReal (Real.exp ((b * l' + q' + j' + k') - A θ')) := by
      rw [dp, p1, p2, p3, p4]
      show ENNReal.ofReal _ * _ = _
      rw [← ENNReal.ofReal_mul (Real.exp_pos _).le, ← Real.exp_add]
      rfl
    have hex := exponent_real e b hβ mu w p (A θ) (A θ') (by
        split
        · rename_i hk
          rw [if_pos hk] at hA
          rw [s1, hp]
          exact ⟨hA θ, by show tFactor e mu c.theta = _; rw [c1]; exact hA θ'⟩
        · rename_i hk
          rw [if_neg hk] at hA
          rw [hA]
          exact ⟨rfl, rfl⟩) hnoflow (s5.trans w1) (s4.trans w2) w3 w4
      (show p.logl = fin l' by rw [hp]; simp [hvm, p1]) (show p.logp = fin q' by rw [hp]; simp [hfm, p2])
      (show p.logdetj = fin j' by rw [hp]; exact p3) (show p.logdetjFlow = fin k' by rw [hp]; exact p4)
    have hal : alpha e mu w p = fin (min 1 (Real.exp ((b * l' + q' + j' + k' - A θ') - (b * l + q + j + kk - A θ)))) := by
      unfold alpha
      rw [hex]
      simp
    rw [hal, tw, tp]
    by_cases hlt : r < min 1 (Real.exp ((b * l' + q' + j' + k' - A θ') - (b * l + q + j + kk - A θ)))
    · rw [if_pos ((fin_lt _ _).mpr hlt), if_pos ((ofReal_lt_acc hr0).mpr hlt), hp]
      exact ⟨c1, c2, c3, by simp [hfm], by simp [hvm]⟩
    · rw [if_neg (fun hh => hlt ((fin_lt _ _).mp hh)), if_neg (by rw [ofReal_lt_acc hr0]; exact hlt)]
      exact ⟨s1, s2, s3, s4, s5⟩

/-! ### balance from an involution -/

theorem posteriorDensity_ne_top (e : McmcEnv d B) (ll lp : Pt d → F) (b : ℝ) (θ : Fin d → ℝ) :
    posteriorDensity e ll lp b θ ≠ ⊤ := by
  unfold posteriorDensity
  split
  · split
    · unfold temperedDensity
      split <;> simp
    · simp
  · simp

theorem mul_acc {t : ℝ≥0∞} (ht : t ≠ ⊤) (t' : ℝ≥0∞) : t * acc t t' = min t t' := by
  unfold acc
  by_cases h0 : t = 0
  · rw [h0]; simp
  · rw [mul_min, mul_one, ENNReal.mul_div_cancel h0 ht]

theorem measurable_acc {α : Type*} [MeasurableSpace α] {f g : α → ℝ≥0∞} (hf : Measurable f) (hg : Measurable g) :
    Measurable fun x => acc (f x) (g x) := measurable_const.min (hg.div hf)

instance : IsProbabilityMeasure (normals d) := by unfold normals; infer_instance

instance : IsProbabilityMeasure uniform01 := ⟨by simp [uniform01]⟩

/-- Detailed balance for proposals that are measure-preserving involutions of (point, randomness). -/
theorem balance_of_involution {Ω : Type} [MeasurableSpace Ω] (ζ : Measure Ω) [SFinite ζ]
    (T : (Fin d → ℝ) × Ω → (Fin d → ℝ) × Ω)
    (hT : MeasurePreserving T ((volume : Measure (Fin d → ℝ)).prod ζ) ((volume : Measure (Fin d → ℝ)).prod ζ))
    (dens : (Fin d → ℝ) → ℝ≥0∞) (hd : Measurable dens) (s : (Fin d → ℝ) → ℝ≥0∞) (hs : Measurable s)
    (j : (Fin d → ℝ) × Ω → ℝ≥0∞) (hj : Measurable j)
    (hae : ∀ᵐ q ∂((volume : Measure (Fin d → ℝ)).prod ζ), (T (T q)).1 = q.1 ∧
      dens (T q).1 * j (T q) * acc (s (T q).1) (s q.1) = dens q.1 * j q * acc (s q.1) (s (T q).1))
    (next : (Fin d → ℝ) → Ω × ℝ → Fin d → ℝ)
    (hnext : ∀ θ ω, next θ ω = if ENNReal.ofReal ω.2 < acc (s θ) (s (T (θ, ω.1)).1) then (T (θ, ω.1)).1 else θ)
    (law : (Fin d → ℝ) → Measure (Ω × ℝ))
    (hlaw : ∀ θ, law θ = (ζ.withDensity fun ω => j (θ, ω)).prod uniform01) (hprob : ∀ θ, IsProbabilityMeasure (law θ)) :
    RandomStep law next ∧ DetailedBalance dens law next := by
  have hT1 : Measurable fun q => (T q).1 := hT.measurable.fst
  have ha : Measurable fun q : (Fin d → ℝ) × Ω => acc (s q.1) (s (T q).1) :=
    measurable_acc (hs.comp measurable_fst) (hs.comp hT1)
  haveI : SFinite uniform01 := by unfold uniform01; infer_instance
  have hnm : ∀ θ, Measurable (next θ) := by
    intro θ
    have hTθ : Measurable fun ω => (T (θ, ω)).1 := hT1.comp measurable_prodMk_left
    have haθ : Measurable fun ω => acc (s θ) (s (T (θ, ω)).1) := ha.comp measurable_prodMk_left
    have : next θ = fun ω : Ω × ℝ =>
        if ENNReal.ofReal ω.2 < acc (s θ) (s (T (θ, ω.1)).1) then (T (θ, ω.1)).1 else θ := funext (hnext θ)
    rw [this]
    refine Measurable.ite (measurableSet_lt ?_ ?_) (hTθ.comp measurable_fst) measurable_const
    · exact ENNReal.measurable_ofReal.comp measurable_snd
    · exact haθ.comp measurable_fst
  have key : ∀ (θ : Fin d → ℝ) (C : Set (Fin d → ℝ)), MeasurableSet C → law θ {ω | next θ ω ∈ C} =
      ∫⁻ ω, j (θ, ω) * (acc (s θ) (s (T (θ, ω)).1) * C.indicator 1 (T (θ, ω)).1 +
        (1 - acc (s θ) (s (T (θ, ω)).1)) * C.indicator 1 θ) ∂ζ := by
    intro θ C hC
    have hTθ : Measurable fun ω => (T (θ, ω)).1 := hT1.comp measurable_prodMk_left
    have hjθ : Measurable fun ω => j (θ, ω) := hj.comp measurable_prodMk_left
    have haθ : Measurable fun ω => acc (s θ) (s (T (θ, ω)).1) := ha.comp measurable_prodMk_left
    have hms : MeasurableSet {ω : Ω × ℝ | next θ ω ∈ C} := hnm θ hC
    rw [hlaw, Measure.prod_apply hms]
    have hin : ∀ ω, uniform01 (Prod.mk ω ⁻¹' {ω | next θ ω ∈ C}) = acc (s θ) (s (T (θ, ω)).1) *
        C.indicator 1 (T (θ, ω)).1 + (1 - acc (s θ) (s (T (θ, ω)).1)) * C.indicator 1 θ := by
      intro ω
      rw [← accept_prob _ (acc_le _ _)]
      unfold uniform01
      congr 1
      ext r
      simp [hnext]
    simp only [hin]
    have hm2 : Measurable fun ω => acc (s θ) (s (T (θ, ω)).1) * C.indicator (1 : (Fin d → ℝ) → ℝ≥0∞) (T (θ, ω)).1 +
        (1 - acc (s θ) (s (T (θ, ω)).1)) * C.indicator (1 : (Fin d → ℝ) → ℝ≥0∞) θ :=
      (haθ.mul ((measurable_one.indicator hC).comp hTθ)).add ((measurable_const.sub haθ).mul measurable_const)
    rw [lintegral_withDensity_eq_lintegral_mul _ hjθ hm2]
    rfl
  refine ⟨⟨hprob, hnm, fun C hC => ?_⟩, ?_⟩
  · simp only [key _ _ hC]
    refine Measurable.lintegral_prod_right' (f := fun q : (Fin d → ℝ) × Ω => j q *
      (acc (s q.1) (s (T q).1) * C.indicator (1 : (Fin d → ℝ) → ℝ≥0∞) (T q).1 +
        (1 - acc (s q.1) (s (T q).1)) * C.indicator (1 : (Fin d → ℝ) → ℝ≥0∞) q.1)) ?_
    exact hj.mul ((ha.mul ((measurable_one.indicator hC).comp hT1)).add
      ((measurable_const.sub ha).mul ((measurable_one.indicator hC).comp measurable_fst)))
  intro A C hA hC
  have hJ : Measurable fun q : (Fin d → ℝ) × Ω => dens q.1 * j q := (hd.comp measurable_fst).mul hj
  have flux := metropolis_flux (volume : Measure (Fin d → ℝ)) ζ T hT (fun q => dens q.1 * j q)
    (fun q => acc (s q.1) (s (T q).1)) hJ ha (by
      filter_upwards [hae] with q hq
      refine ⟨hq.1, ?_⟩
      rw [hq.1]
      exact hq.2) hA hC
  have conv : ∀ (θ : Fin d → ℝ) (D : Set (Fin d → ℝ)), MeasurableSet D → dens θ * law θ {ω | next θ ω ∈ D} =
      ∫⁻ ω, dens θ * j (θ, ω) * (acc (s θ) (s (T (θ, ω)).1) * D.indicator 1 (T (θ, ω)).1 +
        (1 - acc (s θ) (s (T (θ, ω)).1)) * D.indicator 1 θ) ∂ζ := by
    intro θ D hD
    have hTθ : Measurable fun ω => (T (θ, ω)).1 := hT1.comp measurable_prodMk_left
    have hjθ : Measurable fun ω => j (θ, ω) := hj.comp measurable_prodMk_left
    have haθ : Measurable fun ω => acc (s θ) (s (T (θ, ω)).1) := ha.comp measurable_prodMk_left
    have hm2 : Measurable fun ω => j (θ, ω) * (acc (s θ) (s (T (θ, ω)).1) *
        D.indicator (1 : (Fin d → ℝ) → ℝ≥0∞) (T (θ, ω)).1 +
        (1 - acc (s θ) (s (T (θ, ω)).1)) * D.indicator (1 : (Fin d → ℝ) → ℝ≥0∞) θ) :=
      hjθ.mul ((haθ.mul ((measurable_one.indicator hD).comp hTθ)).add ((measurable_const.sub haθ).mul measurable_const))
    rw [key θ D hD, ← lintegral_const_mul _ hm2]
    apply lintegral_congr
    intro ω
    ring
  simp only [conv _ _ hA, conv _ _ hC]
  exact flux

/-! ### C31 -/

theorem matVec_real (M : Matrix (Fin d) (Fin d) ℝ) (C : Fin d → Fin d → F) (hC : ∀ i j, C i j = fin (M i j))
    (z : Fin d → ℝ) : matVec C (pt z) = pt (M.mulVec z) := by
  funext i
  have : (List.ofFn fun j => C i j * pt z j) = (List.ofFn fun j => M i j * z j).map fin := by
    rw [List.map_ofFn]
    congr 1
    funext j
    simp [hC, pt]
  unfold matVec
  rw [this, sum_fin, List.sum_ofFn]
  rfl

/-- What one step of a random-walk kernel does to a walker, with the acceptance written out. -/
theorem rw_kernel (e : McmcEnv d B) (hk : e.kernel.isPcn = false) (ll lp : Pt d → F) (bb : Pt d → B)
    (hrow : RowWise e ll lp bb) (hbc : BoundaryMild e)
    (b : ℝ) (hβ : e.beta = fin b) (hb : 0 ≤ b) (hll : ∀ x, ll x ≠ pinf) (hfl : ∀ p, (e.flowInv p).2 ≠ pinf)
    (L : Matrix (Fin d) (Fin d) ℝ) (hL : ∀ i j, e.cholCov i j = fin (L i j)) (σ : ℝ)
    (hm : Measurable (posteriorDensity e ll lp b)) :
    ∃ next : (Fin d → ℝ) → (Fin d → ℝ) × ℝ → Fin d → ℝ,
      (∀ θ ω, next θ ω = if ENNReal.ofReal ω.2 < acc (posteriorDensity e ll lp b θ) (posteriorDensity e ll lp b (θ + σ • L.mulVec ω.1)) then
        θ + σ • L.mulVec ω.1 else θ) ∧
      (∀ (fuel : ℕ) (rnd : ℕ → Draw d) (i : ℕ) (st st' : McmcState d B) (k : ℕ) (w : Walker d B) (θ z : Fin d → ℝ) (r : ℝ),
        mcmcStep e fuel rnd i st = .ok st' → st.sigma = fin σ → st.walkers[k]? = some w → StandsAt e ll lp w θ →
        posteriorDensity e ll lp b θ ≠ 0 → (rnd k).z = pt z → (rnd k).rand = fin r → 0 ≤ r →
        ∃ w', st'.walkers[k]? = some w' ∧ StandsAt e ll lp w' (next θ (z, r))) ∧
      RandomStep (fun _ : Fin d → ℝ => (normals d).prod uniform01) next ∧
      DetailedBalance (posteriorDensity e ll lp b) (fun _ => (normals d).prod uniform01) next := by
  set dens := posteriorDensity e ll lp b with hdens
  let S : (Fin d → ℝ) × (Fin d → ℝ) →ₗ[ℝ] (Fin d → ℝ) × (Fin d → ℝ) :=
    (LinearMap.fst ℝ _ _ + (σ • (Matrix.mulVecLin L)) ∘ₗ LinearMap.snd ℝ _ _).prod (-(LinearMap.snd ℝ _ _))
  have hS : ∀ q, S q = (q.1 + σ • L.mulVec q.2, -q.2) := fun q => rfl
  have hSS : ∀ q, S (S q) = q := by
    intro q
    rw [hS, hS]
    simp [Matrix.mulVec_neg]
  haveI : ((volume : Measure (Fin d → ℝ)).prod (volume : Measure (Fin d → ℝ))).IsAddHaarMeasure :=
    Measure.prod.instIsAddHaarMeasure _ _
  refine ⟨fun θ ω => if ENNReal.ofReal ω.2 < acc (dens θ) (dens (S (θ, ω.1)).1) then (S (θ, ω.1)).1 else θ, fun θ ω => rfl, ?_, ?_⟩
  · intro fuel rnd i st st' k w θ z r h hσ hw hs hpos hz hr hr0
    have hprop : propose e st.sigma st.mu w (rnd k) = pt (S (θ, z)).1 := by
      unfold propose
      simp only [hk, Bool.false_eq_true, if_false, hσ, hz, hs.1, matVec_real L _ hL]
      funext i
      simp [pt, hS]
    have := step_moves e ll lp bb hrow hbc b hβ hb hll hfl st.mu (fun _ => 0) (by rw [hk]; simp) h rfl hw hs hpos
      hprop hr hr0
    simpa using this
  · refine balance_of_involution (volume : Measure (Fin d → ℝ)) S (involution_preserving _ S hSS) dens hm dens hm
      (fun q => normalsPdf q.2) (measurable_normalsPdf.comp measurable_snd) ?_ _ (fun θ ω => rfl) _ ?_
      fun _ => inferInstance
    · refine ae_of_all _ fun q => ⟨by rw [hSS], ?_⟩
      have hn : normalsPdf (S q).2 = normalsPdf q.2 := by
        rw [normalsPdf_eq, normalsPdf_eq, hS]
        simp
      rw [hn, mul_right_comm, mul_acc (posteriorDensity_ne_top e ll lp b _), mul_right_comm,
        mul_acc (posteriorDensity_ne_top e ll lp b _), min_comm]
    · intro θ
      unfold normals
      rw [normals_density]

/-- **C31.** One step of a random-walk kernel, at any proposal scale, moves a walker standing at `θ` to `next θ (z, r)`,
where `z` are the normal numbers and `r` is the uniform number the step draws for it; and this move satisfies detailed
balance for the tempered posterior density in the space in which the kernel moves.  (Points of zero density are no
starting points; they carry no mass.) -/
theorem C31_detailed_balance (e : McmcEnv d B) (hk : e.kernel.isPcn = false) (ll lp : Pt d → F) (bb : Pt d → B)
    (hrow : RowWise e ll lp bb) (hbc : BoundaryMild e)
    (b : ℝ) (hβ : e.beta = fin b) (hb : 0 ≤ b) (hll : ∀ x, ll x ≠ pinf) (hfl : ∀ p, (e.flowInv p).2 ≠ pinf)
    (L : Matrix (Fin d) (Fin d) ℝ) (hL : ∀ i j, e.cholCov i j = fin (L i j)) (σ : ℝ)
    (hm : Measurable (posteriorDensity e ll lp b)) :
    ∃ next : (Fin d → ℝ) → (Fin d → ℝ) × ℝ → Fin d → ℝ,
      (∀ (fuel : ℕ) (rnd : ℕ → Draw d) (i : ℕ) (st st' : McmcState d B) (k : ℕ) (w : Walker d B) (θ z : Fin d → ℝ) (r : ℝ),
        mcmcStep e fuel rnd i st = .ok st' → st.sigma = fin σ → st.walkers[k]? = some w → StandsAt e ll lp w θ →
        posteriorDensity e ll lp b θ ≠ 0 → (rnd k).z = pt z → (rnd k).rand = fin r → 0 ≤ r →
        ∃ w', st'.walkers[k]? = some w' ∧ StandsAt e ll lp w' (next θ (z, r))) ∧
      RandomStep (fun _ : Fin d → ℝ => (normals d).prod uniform01) next ∧
      DetailedBalance (posteriorDensity e ll lp b) (fun _ => (normals d).prod uniform01) next :=
  let ⟨next, _, h⟩ := rw_kernel e hk ll lp bb hrow hbc b hβ hb hll hfl L hL σ hm
  ⟨next, h⟩

/-! ### C32 -/

/-- Squared distance from the mean in the metric of the fitted covariance `L Lᵀ`. -/
noncomputable def mahal (L : Matrix (Fin d) (Fin d) ℝ) (v : Fin d → ℝ) : ℝ := ∑ i, (L⁻¹.mulVec v) i ^ 2

theorem mahal_nonneg (L : Matrix (Fin d) (Fin d) ℝ) (v : Fin d → ℝ) : 0 ≤ mahal L v :=
  Finset.sum_nonneg fun i _ => sq_nonneg _

theorem mahal_eq (L : Matrix (Fin d) (Fin d) ℝ) (v : Fin d → ℝ) :
    ∑ i, v i * ((L * L.transpose)⁻¹.mulVec v) i = mahal L v := by
  have h : (L * L.transpose)⁻¹ = L⁻¹.transpose * L⁻¹ := by
    rw [Matrix.mul_inv_rev, Matrix.transpose_nonsing_inv]
  have h2 : (L⁻¹.transpose * L⁻¹).mulVec v = L⁻¹.transpose.mulVec (L⁻¹.mulVec v) := by
    rw [Matrix.mulVec_mulVec]
  have h3 : v ⬝ᵥ L⁻¹.transpose.mulVec (L⁻¹.mulVec v) = (L⁻¹.mulVec v) ⬝ᵥ (L⁻¹.mulVec v) := by
    rw [Matrix.dotProduct_mulVec, Matrix.vecMul_transpose]
  rw [h, h2]
  show v ⬝ᵥ _ = _
  rw [h3]
  unfold mahal dotProduct
  exact Finset.sum_congr rfl fun i _ => (pow_two _).symm

theorem quad_real (e : McmcEnv d B) (L : Matrix (Fin d) (Fin d) ℝ)
    (hP : ∀ i j, e.invCov i j = fin ((L * L.transpose)⁻¹ i j)) (m θ : Fin d → ℝ) :
    quad e (pt m) (pt θ) = fin (mahal L (θ - m)) := by
  have h1 : (fun i => pt θ i - pt m i) = pt (θ - m) := by funext i; simp [pt]
  unfold quad
  rw [h1]
  show dot _ (matVec _ _) = _
  rw [matVec_real _ _ hP]
  unfold dot
  have : (List.ofFn fun i => pt (θ - m) i * pt ((L * L.transpose)⁻¹.mulVec (θ - m)) i)
      = (List.ofFn fun i => (θ - m) i * ((L * L.transpose)⁻¹.mulVec (θ - m)) i).map fin := by
    rw [List.map_ofFn]
    congr 1
  rw [this, sum_fin, List.sum_ofFn, mahal_eq]

/-- The reflection that exchanges the current and the proposed point, for mixing variable `g`. -/
noncomputable def reflect (L : Matrix (Fin d) (Fin d) ℝ) (ρ σ g : ℝ) :
    (Fin d → ℝ) × (Fin d → ℝ) →ₗ[ℝ] (Fin d → ℝ) × (Fin d → ℝ) :=
  (ρ • LinearMap.fst ℝ _ _ + ((σ / Real.sqrt g) • (Matrix.mulVecLin L)) ∘ₗ LinearMap.snd ℝ _ _).prod
    (((σ * Real.sqrt g) • (Matrix.mulVecLin L⁻¹)) ∘ₗ LinearMap.fst ℝ _ _ - ρ • LinearMap.snd ℝ _ _)

theorem reflect_apply (L : Matrix (Fin d) (Fin d) ℝ) (ρ σ g : ℝ) (q : (Fin d → ℝ) × (Fin d → ℝ)) :
    reflect L ρ σ g q = (ρ • q.1 + (σ / Real.sqrt g) • L.mulVec q.2, (σ * Real.sqrt g) • L⁻¹.mulVec q.1 - ρ • q.2) := rfl

theorem reflect_reflect {L : Matrix (Fin d) (Fin d) ℝ} (hL : IsUnit L.det) {ρ σ g : ℝ} (h1 : ρ ^ 2 + σ ^ 2 = 1)
    (hg : 0 < g) (q : (Fin d → ℝ) × (Fin d → ℝ)) : reflect L ρ σ g (reflect L ρ σ g q) = q := by
  have hs : Real.sqrt g ≠ 0 := (Real.sqrt_pos.mpr hg).ne'
  have e1 : L.mulVec (L⁻¹.mulVec q.1) = q.1 := by
    rw [Matrix.mulVec_mulVec, Matrix.mul_nonsing_inv _ hL, Matrix.one_mulVec]
  have e2 : L⁻¹.mulVec (L.mulVec q.2) = q.2 := by
    rw [Matrix.mulVec_mulVec, Matrix.nonsing_inv_mul _ hL, Matrix.one_mulVec]
  rw [reflect_apply, reflect_apply]
  ext i
  · simp only [Matrix.mulVec_sub, Matrix.mulVec_smul, e1, Pi.add_apply, Pi.smul_apply, Pi.sub_apply, smul_eq_mul]
    field_simp
    linear_combination (Real.sqrt g * q.1 i) * h1
  · simp only [Matrix.mulVec_add, Matrix.mulVec_smul, e2, Pi.add_apply, Pi.smul_apply, Pi.sub_apply, smul_eq_mul]
    field_simp
    linear_combination (q.2 i) * h1

theorem reflect_energy {L : Matrix (Fin d) (Fin d) ℝ} (hL : IsUnit L.det) {ρ σ g : ℝ} (h1 : ρ ^ 2 + σ ^ 2 = 1)
    (hg : 0 < g) (q : (Fin d → ℝ) × (Fin d → ℝ)) :
    g * mahal L (reflect L ρ σ g q).1 + ∑ i, (reflect L ρ σ g q).2 i ^ 2 = g * mahal L q.1 + ∑ i, q.2 i ^ 2 := by
  have hs : Real.sqrt g ≠ 0 := (Real.sqrt_pos.mpr hg).ne'
  have hsq : Real.sqrt g ^ 2 = g := Real.sq_sqrt hg.le
  have e2 : L⁻¹.mulVec (L.mulVec q.2) = q.2 := by
    rw [Matrix.mulVec_mulVec, Matrix.nonsing_inv_mul _ hL, Matrix.one_mulVec]
  unfold mahal
  rw [Finset.mul_sum, Finset.mul_sum, ← Finset.sum_add_distrib, ← Finset.sum_add_distrib]
  apply Finset.sum_congr rfl
  intro i _
  rw [reflect_apply]
  simp only [Matrix.mulVec_add, Matrix.mulVec_smul, e2, Pi.add_apply, Pi.smul_apply, Pi.sub_apply, smul_eq_mul]
  obtain ⟨a, ha⟩ : ∃ a, a = (L⁻¹.mulVec q.1) i := ⟨_, rfl⟩
  obtain ⟨c, hc⟩ : ∃ c, c = Real.sqrt g := ⟨_, rfl⟩
  rw [← hc] at hs hsq
  rw [← ha, ← hc, ← hsq]
  field_simp
  linear_combination (c ^ 2 * a ^ 2 + (q.2 i) ^ 2) * h1


theorem measurable_mulVec (M : Matrix (Fin d) (Fin d) ℝ) : Measurable fun v : Fin d → ℝ => M.mulVec v :=
  (LinearMap.continuous_of_finiteDimensional (Matrix.mulVecLin M)).measurable

theorem measurable_mahal (L : Matrix (Fin d) (Fin d) ℝ) : Measurable (mahal L) := by
  unfold mahal
  refine Finset.measurable_fun_sum _ fun i _ => ?_
  exact (((measurable_pi_apply i).comp (measurable_mulVec L⁻¹))).pow_const 2

/-- Current and proposed point exchanged, as a map of (point, (mixing variable, normals)). -/
noncomputable def exchange (L : Matrix (Fin d) (Fin d) ℝ) (ρ σ : ℝ) (m : Fin d → ℝ)
    (q : (Fin d → ℝ) × (ℝ × (Fin d → ℝ))) : (Fin d → ℝ) × (ℝ × (Fin d → ℝ)) :=
  ((reflect L ρ σ q.2.1 (q.1 - m, q.2.2)).1 + m, (q.2.1, (reflect L ρ σ q.2.1 (q.1 - m, q.2.2)).2))

/-- The base measure of the mixing variable and the normals. -/
noncomputable def auxMeasure (d : ℕ) : Measure (ℝ × (Fin d → ℝ)) :=
  ((volume : Measure ℝ).restrict (Set.Ioi 0)).prod (volume : Measure (Fin d → ℝ))

instance : SFinite (auxMeasure d) := by unfold auxMeasure; infer_instance

theorem exchange_preserving {L : Matrix (Fin d) (Fin d) ℝ} (hL : IsUnit L.det) {ρ σ : ℝ} (h1 : ρ ^ 2 + σ ^ 2 = 1)
    (m : Fin d → ℝ) : MeasurePreserving (exchange L ρ σ m) ((volume : Measure (Fin d → ℝ)).prod (auxMeasure d))
      ((volume : Measure (Fin d → ℝ)).prod (auxMeasure d)) := by
  haveI : ((volume : Measure (Fin d → ℝ)).prod (volume : Measure (Fin d → ℝ))).IsAddHaarMeasure :=
    Measure.prod.instIsAddHaarMeasure _ _
  -- the reflections, with the mixing variable outside
  have mg : Measurable (Function.uncurry fun (g : ℝ) (q : (Fin d → ℝ) × (Fin d → ℝ)) =>
      reflect L ρ σ g (q - (m, 0)) + (m, 0)) := by
    have e1 : (Function.uncurry fun (g : ℝ) (q : (Fin d → ℝ) × (Fin d → ℝ)) => reflect L ρ σ g (q - (m, 0)) + (m, 0)) =
        fun q : ℝ × (Fin d → ℝ) × (Fin d → ℝ) => (ρ • (q.2.1 - m) + (σ / Real.sqrt q.1) • L.mulVec q.2.2 + m,
          (σ * Real.sqrt q.1) • L⁻¹.mulVec (q.2.1 - m) - ρ • q.2.2) := by
      funext q
      simp only [Function.uncurry, reflect_apply]
      ext i <;> simp
    rw [e1]
    have ma : Measurable fun q : ℝ × (Fin d → ℝ) × (Fin d → ℝ) => L.mulVec q.2.2 :=
      (measurable_mulVec L).comp (measurable_snd.comp measurable_snd)
    have mb : Measurable fun q : ℝ × (Fin d → ℝ) × (Fin d → ℝ) => L⁻¹.mulVec (q.2.1 - m) :=
      (measurable_mulVec L⁻¹).comp ((measurable_fst.comp measurable_snd).sub_const m)
    have mc : Measurable fun q : ℝ × (Fin d → ℝ) × (Fin d → ℝ) => Real.sqrt q.1 :=
      Real.continuous_sqrt.measurable.comp measurable_fst
    refine Measurable.prodMk ?_ ?_
    · exact ((((measurable_fst.comp measurable_snd).sub_const m).const_smul ρ).add
        ((measurable_const.div mc).smul ma)).add_const m
    · exact ((measurable_const.mul mc).smul mb).sub ((measurable_snd.comp measurable_snd).const_smul ρ)
  have hskew : MeasurePreserving (fun p : ℝ × ((Fin d → ℝ) × (Fin d → ℝ)) =>
      (p.1, reflect L ρ σ p.1 (p.2 - (m, 0)) + (m, 0)))
      (((volume : Measure ℝ).restrict (Set.Ioi 0)).prod ((volume : Measure (Fin d → ℝ)).prod (volume : Measure (Fin d → ℝ))))
      (((volume : Measure ℝ).restrict (Set.Ioi 0)).prod ((volume : Measure (Fin d → ℝ)).prod (volume : Measure (Fin d → ℝ)))) := by
    refine MeasurePreserving.skew_product (f := fun g : ℝ => g)
      (g := fun (g : ℝ) (q : (Fin d → ℝ) × (Fin d → ℝ)) => reflect L ρ σ g (q - (m, 0)) + (m, 0))
      (MeasurePreserving.id _) mg ?_
    refine (ae_restrict_iff' measurableSet_Ioi).mpr (ae_of_all _ fun g hg => ?_)
    exact (involution_preserving_at _ (reflect L ρ σ g) (reflect_reflect hL h1 hg) (m, 0)).map_eq
  -- rearranging the coordinates
  have hR : MeasurePreserving (fun q : (Fin d → ℝ) × (ℝ × (Fin d → ℝ)) => (q.2.1, (q.1, q.2.2)))
      ((volume : Measure (Fin d → ℝ)).prod (auxMeasure d))
      (((volume : Measure ℝ).restrict (Set.Ioi 0)).prod ((volume : Measure (Fin d → ℝ)).prod (volume : Measure (Fin d → ℝ)))) := by
    have a1 := ((measurePreserving_prodAssoc (volume : Measure (Fin d → ℝ)) ((volume : Measure ℝ).restrict (Set.Ioi 0))
      (volume : Measure (Fin d → ℝ))).symm)
    have a2 := (Measure.measurePreserving_swap (μ := (volume : Measure (Fin d → ℝ)))
      (ν := (volume : Measure ℝ).restrict (Set.Ioi 0))).prod (MeasurePreserving.id (volume : Measure (Fin d → ℝ)))
    have a3 := measurePreserving_prodAssoc ((volume : Measure ℝ).restrict (Set.Ioi 0)) (volume : Measure (Fin d → ℝ))
      (volume : Measure (Fin d → ℝ))
    exact a3.comp (a2.comp a1)
  have hR' : MeasurePreserving (fun q : ℝ × ((Fin d → ℝ) × (Fin d → ℝ)) => (q.2.1, (q.1, q.2.2)))
      (((volume : Measure ℝ).restrict (Set.Ioi 0)).prod ((volume : Measure (Fin d → ℝ)).prod (volume : Measure (Fin d → ℝ))))
      ((volume : Measure (Fin d → ℝ)).prod (auxMeasure d)) := by
    have a1 := ((measurePreserving_prodAssoc ((volume : Measure ℝ).restrict (Set.Ioi 0)) (volume : Measure (Fin d → ℝ))
      (volume : Measure (Fin d → ℝ))).symm)
    have a2 := (Measure.measurePreserving_swap (ν := (volume : Measure (Fin d → ℝ)))
      (μ := (volume : Measure ℝ).restrict (Set.Ioi 0))).prod (MeasurePreserving.id (volume : Measure (Fin d → ℝ)))
    have a3 := measurePreserving_prodAssoc (volume : Measure (Fin d → ℝ)) ((volume : Measure ℝ).restrict (Set.Ioi 0))
      (volume : Measure (Fin d → ℝ))
    exact a3.comp (a2.comp a1)
  have hall := hR'.comp (hskew.comp hR)
  have : exchange L ρ σ m = (fun q : ℝ × ((Fin d → ℝ) × (Fin d → ℝ)) => (q.2.1, (q.1, q.2.2))) ∘
      (fun p : ℝ × ((Fin d → ℝ) × (Fin d → ℝ)) => (p.1, reflect L ρ σ p.1 (p.2 - (m, 0)) + (m, 0))) ∘
      (fun q : (Fin d → ℝ) × (ℝ × (Fin d → ℝ)) => (q.2.1, (q.1, q.2.2))) := by
    funext q
    simp only [exchange, Function.comp, Prod.mk_sub_mk, sub_zero, Prod.fst_add, Prod.snd_add, add_zero]
  rw [this]
  exact hall

/-- Density of mixing variable and normals given the point, times the posterior density: up to a factor that the exchange
preserves, the posterior density divided by the reference Student density. -/
theorem joint_density {n ν : ℝ} (hn : 0 < n) (hν : 0 < ν) (g q Q : ℝ) (hg : 0 < g) (hq : 0 ≤ q) (z : Fin d → ℝ)
    (hQ : Q = g * q + ∑ i, z i ^ 2) (D : ℝ≥0∞) :
    D * (gammaPDF n ((ν + q) / 2) g * normalsPdf z) = D * ENNReal.ofReal (Real.exp (-(-n * Real.log (1 + q / ν)))) *
      ENNReal.ofReal ((ν / 2) ^ n / Real.Gamma n * g ^ (n - 1) * Real.exp (-(ν * g) / 2) *
        (Real.sqrt (2 * Real.pi))⁻¹ ^ d * Real.exp (-Q / 2)) := by
  have h1 : 0 < 1 + q / ν := by positivity
  have h2 : (ν + q) / 2 = ν / 2 * (1 + q / ν) := by field_simp
  have h3 : ((ν + q) / 2) ^ n = (ν / 2) ^ n * Real.exp (-(-n * Real.log (1 + q / ν))) := by
    rw [h2, Real.mul_rpow (by positivity) h1.le, Real.rpow_def_of_pos h1]
    congr 2
    ring
  have h4 : 0 < Real.Gamma n := Real.Gamma_pos_of_pos hn
  rw [gammaPDF_of_nonneg hg.le, normalsPdf_eq, mul_assoc D (ENNReal.ofReal (Real.exp _)),
    ← ENNReal.ofReal_mul (Real.exp_pos _).le, ← ENNReal.ofReal_mul (by positivity)]
  congr 2
  rw [h3, hQ]
  have h5 : Real.exp (-(g * q + ∑ i, z i ^ 2) / 2) = Real.exp (-(g * q) / 2) * Real.exp (-(∑ i, z i ^ 2) / 2) := by
    rw [← Real.exp_add]; congr 1; ring
  have h6 : Real.exp (-((ν + q) / 2 * g)) = Real.exp (-(ν * g) / 2) * Real.exp (-(g * q) / 2) := by
    rw [← Real.exp_add]; congr 1; ring
  rw [h5, h6]
  ring

/-- What one step of a t-preconditioned Crank-Nicolson kernel does to a walker, with the acceptance written out. -/
theorem pcn_kernel (e : McmcEnv d B) (hk : e.kernel.isPcn = true) (ll lp : Pt d → F) (bb : Pt d → B)
    (hrow : RowWise e ll lp bb) (hbc : BoundaryMild e)
    (b : ℝ) (hβ : e.beta = fin b) (hb : 0 ≤ b) (hll : ∀ x, ll x ≠ pinf) (hfl : ∀ p, (e.flowInv p).2 ≠ pinf)
    (L : Matrix (Fin d) (Fin d) ℝ) (hdet : IsUnit L.det) (hL : ∀ i j, e.cholCov i j = fin (L i j))
    (hP : ∀ i j, e.invCov i j = fin ((L * L.transpose)⁻¹ i j)) (ν : ℝ) (hν : e.tNu = fin ν) (hν0 : 0 < ν)
    (m : Fin d → ℝ) (σ : ℝ) (hσ : σ ^ 2 ≤ 1) (hm : Measurable (posteriorDensity e ll lp b)) :
    ∃ (shape : ℝ) (scale : (Fin d → ℝ) → ℝ) (next : (Fin d → ℝ) → (ℝ × (Fin d → ℝ)) × ℝ → Fin d → ℝ)
        (s : (Fin d → ℝ) → ℝ≥0∞),
      (Measurable s ∧ (∀ θ, s θ ≠ ⊤ ∧ (s θ = 0 ↔ posteriorDensity e ll lp b θ = 0)) ∧ 0 < shape ∧ (∀ θ, 0 < scale θ) ∧
        ∀ θ ω, next θ ω = if ENNReal.ofReal ω.2 < acc (s θ) (s (Real.sqrt (1 - σ ^ 2) • (θ - m) + (σ / Real.sqrt ω.1.1) • L.mulVec ω.1.2 + m)) then
          Real.sqrt (1 - σ ^ 2) • (θ - m) + (σ / Real.sqrt ω.1.1) • L.mulVec ω.1.2 + m else θ) ∧
      (∀ θ, gammaParams e (pt m) (pt θ) = (fin shape, fin (scale θ))) ∧
      (∀ (fuel : ℕ) (rnd : ℕ → Draw d) (i : ℕ) (st st' : McmcState d B) (k : ℕ) (w : Walker d B) (θ z : Fin d → ℝ)
          (g r : ℝ),
        mcmcStep e fuel rnd i st = .ok st' → st.sigma = fin σ → st.mu = pt m → st.walkers[k]? = some w →
        StandsAt e ll lp w θ → posteriorDensity e ll lp b θ ≠ 0 →
        (rnd k).gamma = fin g → 0 < g → (rnd k).z = pt z → (rnd k).rand = fin r → 0 ≤ r →
        ∃ w', st'.walkers[k]? = some w' ∧ StandsAt e ll lp w' (next θ ((g, z), r))) ∧
      RandomStep (fun θ => ((gammaMeasure shape (1 / scale θ)).prod (normals d)).prod uniform01) next ∧
      DetailedBalance (posteriorDensity e ll lp b)
        (fun θ => ((gammaMeasure shape (1 / scale θ)).prod (normals d)).prod uniform01) next := by
  set dens := posteriorDensity e ll lp b with hdens
  set n : ℝ := (d + ν) / 2 with hn
  have hn0 : 0 < n := by
    have : (0 : ℝ) ≤ d := Nat.cast_nonneg d
    rw [hn]; linarith
  obtain ⟨ρ, hρ⟩ : ∃ ρ, ρ = Real.sqrt (1 - σ ^ 2) := ⟨_, rfl⟩
  have h1 : ρ ^ 2 + σ ^ 2 = 1 := by
    rw [hρ, Real.sq_sqrt (by linarith)]; ring
  let A : (Fin d → ℝ) → ℝ := fun θ => -n * Real.log (1 + mahal L (θ - m) / ν)
  let s : (Fin d → ℝ) → ℝ≥0∞ := fun θ => dens θ * ENNReal.ofReal (Real.exp (-A θ))
  let T := exchange L ρ σ m
  have hq : ∀ θ, 0 ≤ mahal L (θ - m) := fun θ => mahal_nonneg _ _
  have hsc : ∀ θ, 0 < ν + mahal L (θ - m) := fun θ => by have := hq θ; linarith
  have htf : ∀ θ, tFactor e (pt m) (pt θ) = fin (A θ) := by
    intro θ
    have h2 : 0 < 1 + mahal L (θ - m) / ν := by have := hq θ; positivity
    unfold tFactor
    rw [quad_real e L hP, hν]
    have e0 : F.ofNat d = fin (d : ℝ) := rfl
    rw [e0, fin_add, fin_div _ _ hν0.ne', fin_add, log_fin _ h2, fin_neg, fin_div _ _ two_ne_zero, fin_mul, fin_inj]
    show _ = -((d + ν) / 2) * _
    ring
  have mA : Measurable A := by
    have : Measurable fun θ : Fin d → ℝ => mahal L (θ - m) := (measurable_mahal L).comp (measurable_id.sub_const m)
    exact (Real.measurable_log.comp ((this.div_const ν).const_add 1)).const_mul (-n)
  have ms : Measurable s := hm.mul (ENNReal.measurable_ofReal.comp (Real.measurable_exp.comp mA.neg))
  have hst : ∀ θ, s θ ≠ ⊤ := fun θ => ENNReal.mul_ne_top (posteriorDensity_ne_top e ll lp b θ) ENNReal.ofReal_ne_top
  refine ⟨n, fun θ => 2 / (ν + mahal L (θ - m)), fun θ ω => if ENNReal.ofReal ω.2 < acc (s θ) (s (T (θ, ω.1)).1) then
    (T (θ, ω.1)).1 else θ, s, ⟨ms, fun θ => ⟨hst θ, ?_⟩, hn0, fun θ => div_pos two_pos (hsc θ), fun θ ω => ?_⟩, ?_, ?_, ?_⟩
  · show dens θ * ENNReal.ofReal (Real.exp (-A θ)) = 0 ↔ _
    rw [mul_eq_zero, or_iff_left]
    rw [ENNReal.ofReal_eq_zero, not_le]
    exact Real.exp_pos _
  · rw [← hρ]
    rfl
  · intro θ
    unfold gammaParams
    rw [quad_real e L hP, hν]
    have e0 : F.ofNat d = fin (d : ℝ) := rfl
    rw [e0, fin_add, fin_add, fin_div _ _ two_ne_zero, fin_div _ _ (hsc θ).ne']
  · intro fuel rnd i st st' k w θ z g r h hsg hmu hw hs hpos hg hg0 hz hr hr0
    have hprop : propose e st.sigma st.mu w (rnd k) = pt (T (θ, (g, z))).1 := by
      unfold propose
      simp only [hk, if_true, hsg, hz, hs.1, matVec_real L _ hL, hmu, hg]
      funext i
      have e1 : F.sq (fin σ) = fin (σ ^ 2) := by unfold F.sq; rw [fin_mul, pow_two]
      rw [e1, fin_sub, sqrt_fin _ (by linarith), fin_div _ _ hg0.ne', sqrt_fin _ (by positivity)]
      simp only [pt, T, exchange, reflect_apply, fin_sub, fin_mul, fin_add, fin_inj, Pi.add_apply, Pi.smul_apply,
        Pi.sub_apply, smul_eq_mul]
      rw [hρ, Real.sqrt_div zero_le_one, Real.sqrt_one]
      ring
    exact step_moves e ll lp bb hrow hbc b hβ hb hll hfl (pt m) A (by rw [if_pos hk]; exact htf) h hmu hw hs hpos
      hprop hr hr0
  · have mj : Measurable fun q : (Fin d → ℝ) × (ℝ × (Fin d → ℝ)) =>
        gammaPDF n ((ν + mahal L (q.1 - m)) / 2) q.2.1 * normalsPdf q.2.2 := by
      have m1 : Measurable fun q : (Fin d → ℝ) × (ℝ × (Fin d → ℝ)) => (ν + mahal L (q.1 - m)) / 2 :=
        (((measurable_mahal L).comp (measurable_fst.sub_const m)).const_add ν).div_const 2
      have m2 : Measurable fun q : (Fin d → ℝ) × (ℝ × (Fin d → ℝ)) => q.2.1 := measurable_fst.comp measurable_snd
      refine Measurable.mul ?_ (measurable_normalsPdf.comp (measurable_snd.comp measurable_snd))
      unfold gammaPDF gammaPDFReal
      refine ENNReal.measurable_ofReal.comp (Measurable.ite (measurableSet_le measurable_const m2) ?_ measurable_const)
      exact (((m1.pow_const n).div_const _).mul (m2.pow_const (n - 1))).mul (Real.measurable_exp.comp (m1.mul m2).neg)
    refine balance_of_involution (auxMeasure d) T (exchange_preserving hdet h1 m) dens hm s ms _ mj ?_ _
      (fun θ ω => rfl) _ ?_ ?_
    · have hpos : ∀ᵐ q ∂((volume : Measure (Fin d → ℝ)).prod (auxMeasure d)), 0 < q.2.1 := by
        have h0 : ∀ᵐ g ∂((volume : Measure ℝ).restrict (Set.Ioi 0)), 0 < g := ae_restrict_mem measurableSet_Ioi
        have h2 : ∀ᵐ y ∂(auxMeasure d), 0 < y.1 := Measure.quasiMeasurePreserving_fst.ae h0
        exact Measure.quasiMeasurePreserving_snd.ae h2
      filter_upwards [hpos] with q hq0
      have hTT : reflect L ρ σ q.2.1 ((T q).1 - m, (T q).2.2) = (q.1 - m, q.2.2) := by
        have : ((T q).1 - m, (T q).2.2) = reflect L ρ σ q.2.1 (q.1 - m, q.2.2) := by
          simp only [T, exchange, add_sub_cancel_right]
        rw [this, reflect_reflect hdet h1 hq0]
      refine ⟨?_, ?_⟩
      · show (reflect L ρ σ q.2.1 ((T q).1 - m, (T q).2.2)).1 + m = q.1
        rw [hTT]
        simp
      · have hen : q.2.1 * mahal L ((T q).1 - m) + ∑ i, (T q).2.2 i ^ 2
            = q.2.1 * mahal L (q.1 - m) + ∑ i, q.2.2 i ^ 2 := by
          have := reflect_energy hdet h1 hq0 (q.1 - m, q.2.2)
          simp only [T, exchange, add_sub_cancel_right]
          exact this
        have j1 := joint_density hn0 hν0 q.2.1 (mahal L (q.1 - m)) _ hq0 (hq _) q.2.2 rfl (dens q.1)
        have j2 := joint_density hn0 hν0 q.2.1 (mahal L ((T q).1 - m)) _ hq0 (hq _) (T q).2.2 hen.symm (dens (T q).1)
        show dens (T q).1 * (gammaPDF n _ q.2.1 * normalsPdf (T q).2.2) * _ = _
        rw [j1, j2]
        show s (T q).1 * _ * _ = s q.1 * _ * _
        rw [mul_right_comm (s (T q).1), mul_acc (hst _), mul_right_comm (s q.1), mul_acc (hst _), min_comm]
    · intro θ
      congr 1
      have hrate : (1 : ℝ) / (2 / (ν + mahal L (θ - m))) = (ν + mahal L (θ - m)) / 2 := by rw [one_div_div]
      have mg : Measurable (gammaPDF n ((ν + mahal L (θ - m)) / 2)) :=
        ENNReal.measurable_ofReal.comp (measurable_gammaPDFReal _ _)
      have hgam : gammaMeasure n ((ν + mahal L (θ - m)) / 2)
          = ((volume : Measure ℝ).restrict (Set.Ioi 0)).withDensity (gammaPDF n ((ν + mahal L (θ - m)) / 2)) := by
        unfold gammaMeasure
        rw [← withDensity_indicator measurableSet_Ioi]
        apply withDensity_congr_ae
        have h0 : ∀ᵐ g : ℝ, g ≠ 0 := by simp [ae_iff, measure_singleton]
        filter_upwards [h0] with g hg
        rcases lt_or_gt_of_ne hg with h | h
        · rw [gammaPDF_of_neg h, Set.indicator_of_notMem (by simpa using h.le)]
        · rw [Set.indicator_of_mem (by simpa using h)]
      unfold normals auxMeasure
      rw [hrate, hgam, normals_density, prod_withDensity mg measurable_normalsPdf]
    · intro θ
      have hr : 0 < (1 : ℝ) / (2 / (ν + mahal L (θ - m))) := by have := hsc θ; positivity
      haveI := isProbabilityMeasure_gammaMeasure hn0 hr
      infer_instance

/-- **C32.** One step of a t-preconditioned Crank-Nicolson kernel, at any scale and around any centre, moves a walker
standing at `θ` to `next θ ((g, z), r)`, where `g` is the gamma number (its parameters are those the code passes to the
generator), `z` are the normal numbers and `r` is the uniform number drawn for it; and this move satisfies detailed
balance for the tempered posterior density in the space in which the kernel moves. -/
theorem C32_detailed_balance (e : McmcEnv d B) (hk : e.kernel.isPcn = true) (ll lp : Pt d → F) (bb : Pt d → B)
    (hrow : RowWise e ll lp bb) (hbc : BoundaryMild e)
    (b : ℝ) (hβ : e.beta = fin b) (hb : 0 ≤ b) (hll : ∀ x, ll x ≠ pinf) (hfl : ∀ p, (e.flowInv p).2 ≠ pinf)
    (L : Matrix (Fin d) (Fin d) ℝ) (hdet : IsUnit L.det) (hL : ∀ i j, e.cholCov i j = fin (L i j))
    (hP : ∀ i j, e.invCov i j = fin ((L * L.transpose)⁻¹ i j)) (ν : ℝ) (hν : e.tNu = fin ν) (hν0 : 0 < ν)
    (m : Fin d → ℝ) (σ : ℝ) (hσ : σ ^ 2 ≤ 1) (hm : Measurable (posteriorDensity e ll lp b)) :
    ∃ (shape : ℝ) (scale : (Fin d → ℝ) → ℝ) (next : (Fin d → ℝ) → (ℝ × (Fin d → ℝ)) × ℝ → Fin d → ℝ),
      (∀ θ, gammaParams e (pt m) (pt θ) = (fin shape, fin (scale θ))) ∧
      (∀ (fuel : ℕ) (rnd : ℕ → Draw d) (i : ℕ) (st st' : McmcState d B) (k : ℕ) (w : Walker d B) (θ z : Fin d → ℝ)
          (g r : ℝ),
        mcmcStep e fuel rnd i st = .ok st' → st.sigma = fin σ → st.mu = pt m → st.walkers[k]? = some w →
        StandsAt e ll lp w θ → posteriorDensity e ll lp b θ ≠ 0 →
        (rnd k).gamma = fin g → 0 < g → (rnd k).z = pt z → (rnd k).rand = fin r → 0 ≤ r →
        ∃ w', st'.walkers[k]? = some w' ∧ StandsAt e ll lp w' (next θ ((g, z), r))) ∧
      RandomStep (fun θ => ((gammaMeasure shape (1 / scale θ)).prod (normals d)).prod uniform01) next ∧
      DetailedBalance (posteriorDensity e ll lp b)
        (fun θ => ((gammaMeasure shape (1 / scale θ)).prod (normals d)).prod uniform01) next :=
  let ⟨shape, scale, next, _, _, h⟩ := pcn_kernel e hk ll lp bb hrow hbc b hβ hb hll hfl L hdet hL hP ν hν hν0 m σ hσ hm
  ⟨shape, scale, next, h⟩


/-! ### a concrete case -/

theorem example_density (k : Kern) (θ : Fin 2 → ℝ) :
    posteriorDensity (exampleEnv k (fun x => -(sq (x 0)) / fin 2) 0.5) (fun x => -(sq (x 0)) / fin 2) (fun _ => fin 0) 1 θ
      = ENNReal.ofReal (Real.exp (-(θ 0) ^ 2 / 2)) := by
  have h1 : (pt θ, fin 0) = latent (exampleEnv k (fun x => -(sq (x 0)) / fin 2) 0.5) θ := by
    unfold latent
    split <;> rfl
  have h2 : (exampleEnv k (fun x => -(sq (x 0)) / fin 2) 0.5).scaler.inverseRow (pt θ) = .ok (pt θ, fin 0) := by
    simp only [exampleEnv, Scaler.inverseRow, Scaler.invRow, Bool.false_eq_true, if_false, Except.ok.injEq, Prod.mk.injEq]
    constructor
    · funext i
      simp [invCoord, createMasks, F.isfinite]
    · simp [invCoord, createMasks, F.isfinite, F.sum]
  rw [posteriorDensity_eq _ _ _ _ _ _ _ _ _ h1 h2, if_pos fun j => ⟨θ j, rfl⟩]
  have h3 : -(sq (pt θ 0)) / fin 2 = fin (-(θ 0) ^ 2 / 2) := by
    simp only [pt, F.sq, fin_mul, fin_neg]
    rw [fin_div _ _ two_ne_zero, fin_inj]
    ring
  rw [h3]
  show ENNReal.ofReal _ = _
  congr 2
  ring

theorem example_density_measurable (k : Kern) :
    Measurable (posteriorDensity (exampleEnv k (fun x => -(sq (x 0)) / fin 2) 0.5) (fun x => -(sq (x 0)) / fin 2)
      (fun _ => fin 0) 1) := by
  have : posteriorDensity (exampleEnv k (fun x => -(sq (x 0)) / fin 2) 0.5) (fun x => -(sq (x 0)) / fin 2)
      (fun _ => fin 0) 1 = fun θ => ENNReal.ofReal (Real.exp (-(θ 0) ^ 2 / 2)) := funext (example_density k)
  rw [this]
  exact ENNReal.measurable_ofReal.comp (Real.measurable_exp.comp
    (((measurable_pi_apply 0).pow_const 2).neg.div_const 2))

theorem example_stands (k : Kern) (t : ℝ) : StandsAt (exampleEnv k (fun x => -(sq (x 0)) / fin 2) 0.5)
    (fun x => -(sq (x 0)) / fin 2) (fun _ => fin 0) (exampleWalker (fun x => -(sq (x 0)) / fin 2) t) fun _ => t := by
  refine ⟨rfl, ?_, (exampleWalker_belongs k _ 0.5 t).1, rfl, rfl⟩
  unfold latent
  split <;> rfl

theorem example_ll (x : Pt 2) : -(sq (x 0)) / fin 2 ≠ pinf := by
  intro h
  cases hx : x 0 with
  | nan => rw [hx] at h; cases h
  | ninf =>
    rw [hx] at h
    have : -(sq ninf) / fin 2 = ninf := by
      show F.div (F.neg (F.mul ninf ninf)) (fin 2) = ninf
      simp [F.mul, F.neg, F.div, infMul]
    rw [this] at h
    cases h
  | pinf =>
    rw [hx] at h
    have : -(sq pinf) / fin 2 = ninf := by
      show F.div (F.neg (F.mul pinf pinf)) (fin 2) = ninf
      simp [F.mul, F.neg, F.div, infMul]
    rw [this] at h
    cases h
  | fin r =>
    rw [hx] at h
    simp only [F.sq, fin_mul, fin_neg] at h
    rw [fin_div _ _ two_ne_zero] at h
    cases h

/-- C31 applies to the two random-walk kernels on the example (target a Gaussian in the first coordinate), with identity
covariance; a walker at (1, 1) has positive density and every step succeeds. -/
example (k : Kern) (hk : k.isPcn = false) (rnd : ℕ → Draw 2) (z : Fin 2 → ℝ) (hz : (rnd 0).z = pt z)
    (hr : (rnd 0).rand = fin 0.3) :
    ∃ next : (Fin 2 → ℝ) → (Fin 2 → ℝ) × ℝ → Fin 2 → ℝ,
      DetailedBalance (fun θ => ENNReal.ofReal (Real.exp (-(θ 0) ^ 2 / 2))) (fun _ => (normals 2).prod uniform01) next ∧
      ∃ st' w', mcmcStep (exampleEnv k (fun x => -(sq (x 0)) / fin 2) 0.5) 0 rnd 1
          (mcmcInit (exampleEnv k (fun x => -(sq (x 0)) / fin 2) 0.5) [exampleWalker (fun x => -(sq (x 0)) / fin 2) 1])
          = .ok st' ∧ st'.walkers[0]? = some w' ∧ w'.theta = pt (next (fun _ => 1) (z, 0.3)) := by
  obtain ⟨next, h1, -, h2⟩ := C31_detailed_balance (exampleEnv k (fun x => -(sq (x 0)) / fin 2) 0.5) hk
    (fun x => -(sq (x 0)) / fin 2) (fun _ => fin 0) (fun _ => ()) (exampleEnv_rowwise _ _ _) (Or.inl ⟨rfl, rfl⟩) 1 rfl zero_le_one
    example_ll (fun p => by simp [exampleEnv]) 1
    (fun i j => by simp only [exampleEnv, Matrix.one_apply]; split <;> rfl) 0.5 (example_density_measurable k)
  refine ⟨next, ?_, ?_⟩
  · have : posteriorDensity (exampleEnv k (fun x => -(sq (x 0)) / fin 2) 0.5) (fun x => -(sq (x 0)) / fin 2)
      (fun _ => fin 0) 1 = fun θ => ENNReal.ofReal (Real.exp (-(θ 0) ^ 2 / 2)) := funext (example_density k)
    rw [this] at h2
    exact h2
  · obtain ⟨r, hm, -⟩ := C28_terminates (exampleEnv k (fun x => -(sq (x 0)) / fin 2) 0.5)
      (exampleEnv_bounds _ _ _) (by simp [exampleEnv]) _ _ _ (exampleEnv_rowwise _ _ _) 0 (fun _ => rnd)
      [exampleWalker (fun x => -(sq (x 0)) / fin 2) 1]
    cases hs : mcmcStep (exampleEnv k (fun x => -(sq (x 0)) / fin 2) 0.5) 0 rnd 1
          (mcmcInit (exampleEnv k (fun x => -(sq (x 0)) / fin 2) 0.5) [exampleWalker (fun x => -(sq (x 0)) / fin 2) 1]) with
    | error x =>
      unfold mcmc mcmcLoop at hm
      rw [zero_add, hs] at hm
      cases hm
    | ok st' =>
      have hw : (mcmcInit (exampleEnv k (fun x => -(sq (x 0)) / fin 2) 0.5)
          [exampleWalker (fun x => -(sq (x 0)) / fin 2) 1]).walkers[0]?
            = some (exampleWalker (fun x => -(sq (x 0)) / fin 2) 1) := by
        unfold mcmcInit
        simp only [List.map_cons, List.map_nil, List.getElem?_cons_zero, Option.some.injEq]
        split <;> rfl
      obtain ⟨w', hw', hst, -⟩ := h1 0 rnd 1 _ st' 0 _ _ z 0.3 hs (by
        unfold mcmcInit
        simp only [exampleEnv, hk, Bool.false_eq_true, if_false]) hw (example_stands k 1)
        (by rw [example_density]; simp [Real.exp_pos]) hz hr (by norm_num)
      exact ⟨st', w', rfl, hw', hst⟩

/-- C32 applies to the two t-pCN kernels on the example. -/
example (k : Kern) (hk : k.isPcn = true) : ∃ (shape : ℝ) (scale : (Fin 2 → ℝ) → ℝ)
    (next : (Fin 2 → ℝ) → (ℝ × (Fin 2 → ℝ)) × ℝ → Fin 2 → ℝ),
    DetailedBalance (fun θ => ENNReal.ofReal (Real.exp (-(θ 0) ^ 2 / 2)))
      (fun θ : Fin 2 → ℝ => ((gammaMeasure shape (1 / scale θ)).prod (normals 2)).prod uniform01) next := by
  obtain ⟨shape, scale, next, -, -, -, h⟩ := C32_detailed_balance (exampleEnv k (fun x => -(sq (x 0)) / fin 2) 0.5) hk
    (fun x => -(sq (x 0)) / fin 2) (fun _ => fin 0) (fun _ => ()) (exampleEnv_rowwise _ _ _) (Or.inl ⟨rfl, rfl⟩) 1 rfl zero_le_one
    example_ll (fun p => by simp [exampleEnv]) 1 (by simp)
    (fun i j => by simp only [exampleEnv, Matrix.one_apply]; split <;> rfl)
    (fun i j => by simp only [exampleEnv, Matrix.transpose_one, mul_one, inv_one, Matrix.one_apply]; split <;> rfl)
    5 rfl (by norm_num) (fun _ => 0) 0.5 (by norm_num) (example_density_measurable k)
  have : posteriorDensity (exampleEnv k (fun x => -(sq (x 0)) / fin 2) 0.5) (fun x => -(sq (x 0)) / fin 2)
      (fun _ => fin 0) 1 = fun θ => ENNReal.ofReal (Real.exp (-(θ 0) ^ 2 / 2)) := funext (example_density k)
  rw [this] at h
  exact ⟨shape, scale, next, h⟩

end Poco
