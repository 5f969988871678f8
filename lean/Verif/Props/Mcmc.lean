import Verif.Lemmas.Mcmc
import Verif.Spec.Mcmc
import Verif.Props.Scaler

/-! # C25-C30, C33: the MCMC kernels -/

namespace Poco
open F Spec

variable {d : ℕ} {B : Type}

theorem mcmcInit_walker (e : McmcEnv d B) (ws : List (Walker d B)) :
    (mcmcInit e ws).walkers.length = ws.length ∧ ∀ (k : ℕ) (w : Walker d B), ws[k]? = some w →
      ∃ v, (mcmcInit e ws).walkers[k]? = some v ∧ SameParticle v w := by
  refine ⟨by simp [mcmcInit], fun k w hw => ?_⟩
  simp only [mcmcInit, List.getElem?_map, hw, Option.map_some, Option.some.injEq, exists_eq_left']
  by_cases h : e.kernel.hasFlow <;> simp [h, SameParticle]

/-! ### C25 -/

/-- The walkers after a step, one by one. -/
theorem step_walker {e : McmcEnv d B} {fuel : ℕ} {rnd : ℕ → Draw d} {i : ℕ} {st st' : McmcState d B}
    (h : mcmcStep e fuel rnd i st = .ok st') :
    st'.walkers.length = st.walkers.length ∧ ∀ (k : ℕ) (w' : Walker d B), st'.walkers[k]? = some w' →
      ∃ w c p, st.walkers[k]? = some w ∧ candidate e fuel (propose e st.sigma st.mu w (rnd k)) = .ok c ∧
        p = { c with logl := p.logl, logp := p.logp, blob := p.blob } ∧
        ((finiteMask c && p.logp.isfinite) = false → p.logl = ninf) ∧
        w' = if (rnd k).rand < alpha e st.mu w p then p else w := by
  obtain ⟨cands, props, ev, n, h1, h2, h3, -⟩ := mcmcStep_ok h
  obtain ⟨l1, k1⟩ := mapM_eq_ok h1
  obtain ⟨l2, k2⟩ := evaluate_ok e cands props ev n h2
  rw [List.length_mapIdx] at l1
  refine ⟨by rw [h3]; simp [l1, l2], fun k w' hw' => ?_⟩
  rw [h3, List.getElem?_mapIdx] at hw'
  cases hz : (st.walkers.zip props)[k]? with
  | none => simp [hz] at hw'
  | some q =>
    rw [hz] at hw'
    simp only [Option.map_some, Option.some.injEq] at hw'
    rw [List.getElem?_zip_eq_some] at hz
    obtain ⟨hz1, hz2⟩ := hz
    obtain ⟨c, hc, hp, hm⟩ := k2 k q.2 hz2
    obtain ⟨c', hc', hcand⟩ := k1 k (propose e st.sigma st.mu q.1 (rnd k)) (by
      rw [List.getElem?_mapIdx, hz1]; rfl)
    rw [hc] at hc'
    simp only [Option.some.injEq] at hc'
    subst hc'
    exact ⟨q.1, c, q.2, hz1, hcand, hp, hm, hw'.symm⟩

theorem finiteMask_iff (c : Walker d B) :
    finiteMask c = true ↔ (∃ r, c.logdetj = fin r) ∧ ∀ j, ∃ r, c.x j = fin r := by
  simp only [finiteMask, Bool.and_eq_true, List.all_eq_true, List.mem_ofFn]
  rw [isfinite_iff]
  constructor
  · rintro ⟨h1, h2⟩
    exact ⟨h1, fun j => isfinite_iff.mp (h2 _ ⟨j, rfl⟩)⟩
  · rintro ⟨h1, h2⟩
    refine ⟨h1, ?_⟩
    rintro _ ⟨j, rfl⟩
    exact isfinite_iff.mpr (h2 j)

/-- **C25**, one step, any kernel, any prior and likelihood functions: every walker either keeps its complete previous
state or stands on an admissible point. -/
theorem C25_step (e : McmcEnv d B) (b : ℝ) (hβ : e.beta = fin b) (hb : 0 ≤ b) (fuel : ℕ) (rnd : ℕ → Draw d)
    (hr : ∀ k, ∃ r : ℝ, (rnd k).rand = fin r ∧ 0 ≤ r) (i : ℕ) (st st' : McmcState d B)
    (h : mcmcStep e fuel rnd i st = .ok st') :
    st'.walkers.length = st.walkers.length ∧ ∀ (k : ℕ) (w' : Walker d B), st'.walkers[k]? = some w' →
      st.walkers[k]? = some w' ∨ Admissible w' := by
  obtain ⟨hl, hk⟩ := step_walker h
  refine ⟨hl, fun k w' hw' => ?_⟩
  obtain ⟨w, c, p, h1, h2, h3, h4, h5⟩ := hk k w' hw'
  by_cases hacc : (rnd k).rand < alpha e st.mu w p
  · rw [if_pos hacc] at h5
    subst h5
    right
    have hgood : ¬ Bad w'.logl := by
      intro hbad
      rw [alpha_bad e b hβ hb st.mu w w' hbad] at hacc
      obtain ⟨r, hr1, hr2⟩ := hr k
      rw [hr1, fin_lt] at hacc
      linarith
    have hm : (finiteMask c && w'.logp.isfinite) = true := by
      by_contra hc
      exact hgood (Or.inr (h4 (by simpa using hc)))
    rw [Bool.and_eq_true, finiteMask_iff, isfinite_iff] at hm
    obtain ⟨⟨m1, m2⟩, m3⟩ := hm
    have ex : w'.x = c.x := by rw [h3]
    have el : w'.logdetj = c.logdetj := by rw [h3]
    refine ⟨fun j => ?_, ?_, m3, fun hc => hgood (Or.inl hc), fun hc => hgood (Or.inr hc)⟩
    · rw [ex]; exact m2 j
    · rw [el]; exact m1
  · rw [if_neg hacc] at h5
    left
    rw [h1, h5]

/-- **C25.** Whatever the kernel, prior, likelihood, flow and random draws: when the MCMC phase returns, every walker
either still has its complete initial state or stands on an admissible point; so no proposal with a non-finite
coordinate, Jacobian or prior, or with a NaN or `-inf` log-likelihood, was ever accepted (by `C25_step` at every
step). -/
theorem C25_invalid_rejected (e : McmcEnv d B) (b : ℝ) (hβ : e.beta = fin b) (hb : 0 ≤ b) (fuel : ℕ)
    (rnd : ℕ → ℕ → Draw d) (hr : Uniform rnd) (ws : List (Walker d B)) (r : McmcResult d B)
    (h : mcmc e fuel rnd ws = .ok r) :
    r.walkers.length = ws.length ∧ ∀ (k : ℕ) (w' : Walker d B), r.walkers[k]? = some w' →
      (∃ w, ws[k]? = some w ∧ SameParticle w' w) ∨ Admissible w' := by
  obtain ⟨st, hl, hw, -⟩ := mcmc_ok h
  obtain ⟨i1, i2⟩ := mcmcInit_walker e ws
  rw [hw]
  refine mcmcLoop_ind (fun st => st.walkers.length = ws.length ∧ ∀ (k : ℕ) (w' : Walker d B), st.walkers[k]? = some w' →
      (∃ w, ws[k]? = some w ∧ SameParticle w' w) ∨ Admissible w') ?_ ?_ hl
  · rintro i s s' ⟨p1, p2⟩ hs
    obtain ⟨s1, s2⟩ := C25_step e b hβ hb fuel (rnd (i + 1)) (fun k => by
      obtain ⟨r, h1, h2, -⟩ := hr (i + 1) k
      exact ⟨r, h1, h2⟩) (i + 1) s s' hs
    refine ⟨s1.trans p1, fun k w' hw' => ?_⟩
    rcases s2 k w' hw' with h' | h'
    · exact p2 k w' h'
    · exact Or.inr h'
  · refine ⟨i1, fun k w' hw' => Or.inl ?_⟩
    have hk : k < ws.length := by
      rw [← i1]
      exact (List.getElem?_eq_some_iff.mp hw').1
    obtain ⟨v, hv, hs⟩ := i2 k ws[k] (List.getElem?_eq_getElem hk)
    rw [hw'] at hv
    simp only [Option.some.injEq] at hv
    subst hv
    exact ⟨ws[k], List.getElem?_eq_getElem hk, hs⟩

/-! ### C26 and C27 (kernel part) -/

/-- A point at which the likelihood may be called: it is the image of some `u` with finite coordinates and Jacobian, and
its log-prior is finite. -/
def Spec.Callable (s : Scaler d) (lp : Pt d → F) (x : Pt d) : Prop :=
  (∀ j, ∃ r, x j = fin r) ∧ (∃ r, lp x = fin r) ∧ ∃ u ld, s.inverseRow u = .ok (x, fin ld)

/-- A candidate's `x` and Jacobian are those of its `u`. -/
theorem candidate_belongs {e : McmcEnv d B} {fuel : ℕ} {p : Pt d} {c : Walker d B} (h : candidate e fuel p = .ok c) :
    e.scaler.inverseRow c.u = .ok (c.x, c.logdetj) := by
  unfold candidate at h
  simp only at h
  obtain ⟨⟨x, ld⟩, h1, h⟩ := bind_ok h
  simp only at h
  split at h
  · cases hb : e.scaler.boundaryRow fuel x with
    | none => rw [hb] at h; simp at h
    | some x' =>
      rw [hb] at h
      simp only at h
      obtain ⟨u', h2, h⟩ := bind_ok h
      obtain ⟨⟨x'', ld'⟩, h3, h⟩ := bind_ok h
      simp only [pure, Except.pure, Except.ok.injEq] at h
      subst h
      exact h3
  · simp only [pure, Except.pure, Except.ok.injEq] at h
    subst h
    exact h1

theorem validMask_callable {e : McmcEnv d B} {lp : Pt d → F} {fuel : ℕ} {p : Pt d} {c : Walker d B}
    (h : candidate e fuel p = .ok c) (hv : validMask lp c = true) : Callable e.scaler lp c.x := by
  unfold validMask at hv
  rw [Bool.and_eq_true, finiteMask_iff, isfinite_iff] at hv
  obtain ⟨⟨⟨ld, m1⟩, m2⟩, m3⟩ := hv
  refine ⟨m2, m3, c.u, ld, ?_⟩
  rw [candidate_belongs h, m1]

theorem mapM_mem {α β : Type} {f : α → Except PyErr β} {l : List α} {r : List β} (h : l.mapM f = .ok r) {b : β}
    (hb : b ∈ r) : ∃ a ∈ l, f a = .ok b := by
  obtain ⟨h1, h2⟩ := mapM_eq_ok h
  obtain ⟨k, hk, rfl⟩ := List.mem_iff_getElem.mp hb
  obtain ⟨b', hb', hf⟩ := h2 k l[k] (List.getElem?_eq_getElem (by omega))
  rw [List.getElem?_eq_getElem hk] at hb'
  simp only [Option.some.injEq] at hb'
  subst hb'
  exact ⟨_, List.getElem_mem _, hf⟩

/-- **C26**, one step: the likelihood is evaluated exactly at the points of the proposals that are finite with finite
Jacobian and prior, once for each, in walker order; and the call counter grows by their number. -/
theorem C26_step (e : McmcEnv d B) (ll lp : Pt d → F) (bb : Pt d → B) (hrow : RowWise e ll lp bb) (fuel : ℕ)
    (rnd : ℕ → Draw d) (i : ℕ) (st st' : McmcState d B) (h : mcmcStep e fuel rnd i st = .ok st') :
    ∃ cands : List (Walker d B), cands.length = st.walkers.length ∧
      (∀ (k : ℕ) (w : Walker d B), st.walkers[k]? = some w → ∃ c, cands[k]? = some c ∧
        candidate e fuel (propose e st.sigma st.mu w (rnd k)) = .ok c) ∧
      st'.evaluated = st.evaluated ++ (cands.filter (fun c => c.logdetj.isfinite && (List.ofFn c.x).all F.isfinite &&
        (lp c.x).isfinite)).map (·.x) ∧
      st'.calls + st.evaluated.length = st.calls + st'.evaluated.length := by
  obtain ⟨cands, props, ev, n, h1, h2, -, -, -, -, h7, h8⟩ := mcmcStep_ok h
  obtain ⟨l1, k1⟩ := mapM_eq_ok h1
  rw [List.length_mapIdx] at l1
  rw [evaluate_rowwise e ll lp bb hrow] at h2
  simp only [Except.ok.injEq, Prod.mk.injEq] at h2
  obtain ⟨-, rfl, rfl⟩ := h2
  refine ⟨cands, l1, fun k w hw => ?_, h8, ?_⟩
  · obtain ⟨c, hc, hcand⟩ := k1 k (propose e st.sigma st.mu w (rnd k)) (by rw [List.getElem?_mapIdx, hw]; rfl)
    exact ⟨c, hc, hcand⟩
  · rw [h7, h8]; simp; ring

/-- **C26.** In every MCMC phase that returns, each point given to the likelihood has finite coordinates, finite
Jacobian and finite log-prior; and the reported number of calls is the number of evaluated points. -/
theorem C26_likelihood_calls (e : McmcEnv d B) (ll lp : Pt d → F) (bb : Pt d → B) (hrow : RowWise e ll lp bb) (fuel : ℕ)
    (rnd : ℕ → ℕ → Draw d) (ws : List (Walker d B)) (r : McmcResult d B) (h : mcmc e fuel rnd ws = .ok r) :
    (∀ x ∈ r.evaluated, Callable e.scaler lp x) ∧ r.calls = r.evaluated.length := by
  obtain ⟨st, hl, -, -, -, hc, -, hev⟩ := mcmc_ok h
  rw [hev, hc]
  refine mcmcLoop_ind (fun st => (∀ x ∈ st.evaluated, Callable e.scaler lp x) ∧ st.calls = st.evaluated.length) ?_ ?_ hl
  · rintro i s s' ⟨p1, p2⟩ hs
    obtain ⟨cands, props, ev, n, h1, h2, -, -, -, -, h7, h8⟩ := mcmcStep_ok hs
    rw [evaluate_rowwise e ll lp bb hrow] at h2
    simp only [Except.ok.injEq, Prod.mk.injEq] at h2
    obtain ⟨-, rfl, rfl⟩ := h2
    refine ⟨?_, by rw [h7, h8, p2]; simp⟩
    intro x hx
    rw [h8, List.mem_append] at hx
    rcases hx with hx | hx
    · exact p1 x hx
    · obtain ⟨c, hc, rfl⟩ := List.mem_map.mp hx
      rw [List.mem_filter] at hc
      obtain ⟨a, -, ha⟩ := mapM_mem h1 hc.1
      exact validMask_callable ha hc.2
  · simp [mcmcInit]

/-! ### C29 (kernel part) -/

/-- **C29**, MCMC part. If every initial walker's values belong to its point, so do every returned walker's. -/
theorem C29_mcmc (e : McmcEnv d B) (b : ℝ) (hβ : e.beta = fin b) (hb : 0 ≤ b) (ll lp : Pt d → F) (bb : Pt d → B)
    (hrow : RowWise e ll lp bb) (fuel : ℕ)
    (rnd : ℕ → ℕ → Draw d) (hr : Uniform rnd) (ws : List (Walker d B))
    (h0 : ∀ w ∈ ws, Belongs e.scaler ll lp bb e.haveBlobs w) (r : McmcResult d B) (h : mcmc e fuel rnd ws = .ok r) :
    ∀ w ∈ r.walkers, Belongs e.scaler ll lp bb e.haveBlobs w := by
  obtain ⟨st, hl, hw, -⟩ := mcmc_ok h
  rw [hw]
  refine mcmcLoop_ind (fun st => ∀ w ∈ st.walkers, Belongs e.scaler ll lp bb e.haveBlobs w) ?_ ?_ hl
  · intro i s s' p hs w' hw'
    obtain ⟨cands, props, ev, n, h1, h2, h3, -⟩ := mcmcStep_ok hs
    rw [evaluate_rowwise e ll lp bb hrow] at h2
    simp only [Except.ok.injEq, Prod.mk.injEq] at h2
    obtain ⟨rfl, -, -⟩ := h2
    rw [h3] at hw'
    obtain ⟨k, hk, rfl⟩ := List.mem_iff_getElem.mp hw'
    rw [List.getElem_mapIdx]
    rw [List.length_mapIdx] at hk
    obtain ⟨hk1, hk2⟩ : k < s.walkers.length ∧ k < cands.length := by simpa using hk
    simp only [List.getElem_zip, List.getElem_map]
    refine iteInduction (motive := Belongs e.scaler ll lp bb e.haveBlobs) (fun hacc => ?_) (fun _ => ?_)
    · obtain ⟨a, -, ha⟩ := mapM_mem h1 (List.getElem_mem hk2)
      have hv : validMask lp cands[k] = true := by
        by_contra hv
        rw [alpha_bad e b hβ hb] at hacc
        · obtain ⟨r, hr1, hr2, -⟩ := hr (i + 1) k
          rw [hr1, fin_lt] at hacc
          linarith
        · right
          simp [hv]
      have hf : finiteMask cands[k] = true := by
        unfold validMask at hv
        exact (Bool.and_eq_true _ _ ▸ hv).1
      refine ⟨by simpa using candidate_belongs ha, ?_, ?_, fun hh => ?_⟩
      · simp [hf]
      · simp [hv]
      · simp [hh, hv]
    · exact p _ (List.getElem_mem _)
  · intro w hw
    simp only [mcmcInit, List.mem_map] at hw
    obtain ⟨v, hv, rfl⟩ := hw
    have := h0 v hv
    by_cases hfl : e.kernel.hasFlow <;> simpa [hfl, Belongs] using this

/-! ### C28 -/

theorem loop_steps {e : McmcEnv d B} {fuel : ℕ} {rnd : ℕ → ℕ → Draw d} {i : ℕ} {st st' : McmcState d B} {n : ℕ}
    (h : mcmcLoop e fuel rnd i st = .ok (st', n)) : i + 1 ≤ n ∧ n ≤ max (i + 1) e.nMax := by
  fun_induction mcmcLoop e fuel rnd i st with
  | case1 i st x hs => simp at h
  | case2 i st st1 hs hstop =>
    simp only [Except.ok.injEq, Prod.mk.injEq] at h
    obtain ⟨-, rfl⟩ := h
    exact ⟨le_refl _, le_max_left _ _⟩
  | case3 i st st1 hs hstop hn =>
    simp only [Except.ok.injEq, Prod.mk.injEq] at h
    obtain ⟨-, rfl⟩ := h
    exact ⟨le_refl _, le_max_left _ _⟩
  | case4 i st st1 hs hstop hn ih =>
    obtain ⟨a, b⟩ := ih h
    omega

/-- The inverse map never leaves the closed bounds, whatever (even non-finite) its argument. -/
theorem invCoord_no_escape (t : Transform) (low high u : F) (h1 : low ≠ pinf) (h2 : high ≠ ninf)
    (h3 : ∀ l h, low = fin l → high = fin h → l < h) :
    ¬ ((invCoord t low high u).1 < low) ∧ ¬ ((invCoord t low high u).1 > high) := by
  cases hl : low.isfinite with
  | false =>
    have hlow : ∀ y : F, ¬ (y < low) := by
      intro y
      cases low with
      | nan => simp
      | ninf => cases y <;> simp
      | pinf => exact absurd rfl h1
      | fin l => simp at hl
    refine ⟨hlow _, ?_⟩
    cases hh : high.isfinite with
    | false =>
      cases high with
      | nan => simp
      | pinf => cases (invCoord t low pinf u).1 <;> simp
      | ninf => exact absurd rfl h2
      | fin h => simp at hh
    | true =>
      obtain ⟨h, rfl⟩ := isfinite_iff.mp hh
      simp only [invCoord, masks_right hl hh, invRight, Bool.false_eq_true, if_false, if_true]
      cases u with
      | nan => simp
      | ninf => simp
      | pinf => simp [sub_def]
      | fin r => simp [(Real.exp_pos r).le]
  | true =>
    obtain ⟨l, rfl⟩ := isfinite_iff.mp hl
    cases hh : high.isfinite with
    | false =>
      have hhigh : ∀ y : F, ¬ (y > high) := by
        intro y
        cases high with
        | nan => simp
        | pinf => cases y <;> simp
        | ninf => exact absurd rfl h2
        | fin h => simp at hh
      refine ⟨?_, hhigh _⟩
      simp only [invCoord, masks_left hl hh, invLeft, Bool.false_eq_true, if_false, if_true]
      cases u with
      | nan => simp
      | ninf => simp
      | pinf => simp
      | fin r => simp [(Real.exp_pos r).le]
    | true =>
      obtain ⟨h, rfl⟩ := isfinite_iff.mp hh
      have hlh := h3 l h rfl rfl
      have key : ∀ p : ℝ, 0 ≤ p → p ≤ 1 → ¬ (fin p * (fin h - fin l) + fin l < fin l) ∧
          ¬ (fin p * (fin h - fin l) + fin l > fin h) := by
        intro p hp0 hp1
        simp only [fin_sub, fin_mul, fin_add, gt_iff_lt, fin_lt, not_lt]
        constructor <;> nlinarith
      have keynan : ¬ (nan * (fin h - fin l) + fin l < fin l) ∧ ¬ (nan * (fin h - fin l) + fin l > fin h) := by simp
      cases u with
      | fin r =>
        obtain ⟨g, g', f, hc⟩ := coordOk_exists t (fin l) (fin h) h3
        rw [hc.inv]
        obtain ⟨c1, c2⟩ := hc.inside r
        exact ⟨by simpa using (c1 l rfl).le, by simpa using (c2 h rfl).le⟩
      | nan =>
        simp only [invCoord, masks_both hl hh, Bool.false_eq_true, if_false, if_true]
        cases t with
        | logit =>
          have : exp (-(logaddexp (fin 0) (-nan))) = nan := by simp [logaddexp, feq]
          simp only [invBoth, this]; exact keynan
        | probit => simp only [invBoth, nan_div, erf, nan_add]; exact keynan
      | ninf =>
        simp only [invCoord, masks_both hl hh, Bool.false_eq_true, if_false, if_true]
        cases t with
        | logit =>
          have : exp (-(logaddexp (fin 0) (-ninf))) = fin 0 := by
            have e1 : (fin 0 - pinf : F) = ninf := rfl
            simp only [neg_ninf, logaddexp, feq, if_false, e1, zero_def]
            have e2 : ¬ ((ninf : F) > fin 0) := by simp
            rw [if_neg e2]
            simp only [ninf_le_fin, if_true, exp_ninf, fin_add]
            rw [log_fin _ (by norm_num)]
            simp
          simp only [invBoth, this]; exact key 0 le_rfl zero_le_one
        | probit =>
          have e1 : (ninf / fin (Real.sqrt 2) : F) = ninf := by
            show F.div _ _ = _
            simp [F.div, not_lt.mpr (Real.sqrt_nonneg 2)]
          simp only [invBoth, e1, erf, fin_add]
          rw [fin_div _ _ two_ne_zero]
          exact key _ (by norm_num) (by norm_num)
      | pinf =>
        simp only [invCoord, masks_both hl hh, Bool.false_eq_true, if_false, if_true]
        cases t with
        | logit =>
          have : exp (-(logaddexp (fin 0) (-pinf))) = fin 1 := by
            have e1 : (fin 0 - ninf : F) = pinf := rfl
            simp only [neg_pinf, logaddexp, feq, if_false, e1, zero_def]
            have e2 : ((pinf : F) > fin 0) := by simp
            rw [if_pos e2]
            simp only [neg_pinf, exp_ninf, fin_add]
            rw [log_fin _ (by norm_num)]
            simp
          simp only [invBoth, this]; exact key 1 zero_le_one le_rfl
        | probit =>
          have e1 : (pinf / fin (Real.sqrt 2) : F) = pinf := by
            show F.div _ _ = _
            simp [F.div, not_lt.mpr (Real.sqrt_nonneg 2)]
          simp only [invBoth, e1, erf, fin_add]
          rw [fin_div _ _ two_ne_zero]
          exact key _ (by norm_num) (by norm_num)

/-- The boundary loops end at once on every output of the inverse map, finite or not. -/
theorem boundaryRow_inverse (s : Scaler d) (hb : ProperBounds s.low s.high) (fuel : ℕ) (u x : Pt d) (ld : F)
    (h : s.inverseRow u = .ok (x, ld)) : s.boundaryRow fuel x = some x := by
  have hx : ∃ v, x = (s.invRow v).1 := by
    unfold Scaler.inverseRow at h
    split at h
    · split at h
      · simp only [Except.ok.injEq, Prod.mk.injEq] at h
        exact ⟨_, h.1.symm⟩
      · simp at h
    · simp only [Except.ok.injEq] at h
      exact ⟨u, by rw [h]⟩
  obtain ⟨v, rfl⟩ := hx
  have key : ∀ i, ¬ ((s.invRow v).1 i < s.low i) ∧ ¬ ((s.invRow v).1 i > s.high i) := fun i =>
    invCoord_no_escape _ _ _ _ (hb i).1 (hb i).2.1 (hb i).2.2
  have hp : s.periodicRow fuel (s.invRow v).1 = some (s.invRow v).1 := by
    unfold Scaler.periodicRow
    cases s.periodic with
    | none => rfl
    | some is =>
      refine applyCoords_id _ is _ (fun i _ => ?_)
      unfold periodicEntry
      rw [whileFuel_false (cond := fun x => x > s.high i) (key i).2]
      simp only [Option.bind_eq_bind, Option.bind_some]
      rw [whileFuel_false (cond := fun x => x < s.low i) (key i).1]
  have hr : s.reflectiveRow fuel (s.invRow v).1 = some (s.invRow v).1 := by
    unfold Scaler.reflectiveRow
    cases s.reflective with
    | none => rfl
    | some is =>
      refine applyCoords_id _ is _ (fun i _ => ?_)
      unfold reflectiveEntry
      rw [whileFuel_false (cond := fun x => x > s.high i) (key i).2]
      simp only [Option.bind_eq_bind, Option.bind_some]
      rw [whileFuel_false (cond := fun x => x < s.low i) (key i).1]
  unfold Scaler.boundaryRow
  cases hpe : s.periodic <;> cases hre : s.reflective <;> simp [hp, hr]

theorem inverseRow_ok (s : Scaler d) (hf : s.scale = true → s.affine ≠ none) (u : Pt d) :
    ∃ x ld, s.inverseRow u = .ok (x, ld) := by
  unfold Scaler.inverseRow
  split
  · rename_i hs
    cases ha : s.affine with
    | none => exact absurd ha (hf hs)
    | some a => exact ⟨_, _, rfl⟩
  · exact ⟨_, _, rfl⟩

theorem forwardRow_ok (s : Scaler d) (hf : s.scale = true → s.affine ≠ none) (x : Pt d) :
    ∃ u, s.forwardRow x = .ok u := by
  unfold Scaler.forwardRow
  split
  · rename_i hs
    cases ha : s.affine with
    | none => exact absurd ha (hf hs)
    | some a => exact ⟨_, rfl⟩
  · exact ⟨_, rfl⟩

theorem candidate_ok (e : McmcEnv d B) (hb : ProperBounds e.scaler.low e.scaler.high)
    (hf : e.scaler.scale = true → e.scaler.affine ≠ none) (fuel : ℕ) (p : Pt d) : ∃ c, candidate e fuel p = .ok c := by
  unfold candidate
  simp only
  obtain ⟨x, ld, hx⟩ := inverseRow_ok e.scaler hf (if e.kernel.hasFlow = true then e.flowInv p else (p, fin 0)).1
  rw [hx]
  simp only [bind, Except.bind]
  split
  · rw [boundaryRow_inverse e.scaler hb fuel _ _ _ hx]
    simp only
    obtain ⟨u', hu'⟩ := forwardRow_ok e.scaler hf x
    rw [hu']
    simp only
    obtain ⟨x', ld', hx'⟩ := inverseRow_ok e.scaler hf u'
    rw [hx']
    exact ⟨_, rfl⟩
  · exact ⟨_, rfl⟩

theorem mapM_exists {α β : Type} {f : α → Except PyErr β} (h : ∀ a, ∃ b, f a = .ok b) (l : List α) :
    ∃ r, l.mapM f = .ok r := by
  induction l with
  | nil => exact ⟨[], rfl⟩
  | cons a l ih =>
    obtain ⟨b, hb⟩ := h a
    obtain ⟨r, hr⟩ := ih
    exact ⟨b :: r, by rw [List.mapM_cons, hb, hr]; rfl⟩

/-- **C28.** With proper bounds, a fitted scaler and a likelihood that returns, the MCMC phase always returns, whatever the
random numbers, flow, scales and plateau behaviour (also with NaN or infinite proposals), after between 1 and
max(1, n_max_steps) steps. -/
theorem C28_terminates (e : McmcEnv d B) (hb : ProperBounds e.scaler.low e.scaler.high)
    (hf : e.scaler.scale = true → e.scaler.affine ≠ none) (ll lp : Pt d → F) (bb : Pt d → B)
    (hrow : RowWise e ll lp bb) (fuel : ℕ) (rnd : ℕ → ℕ → Draw d) (ws : List (Walker d B)) :
    ∃ r, mcmc e fuel rnd ws = .ok r ∧ 1 ≤ r.steps ∧ r.steps ≤ max 1 e.nMax := by
  have hstep : ∀ i st, ∃ st', mcmcStep e fuel (rnd i) i st = .ok st' := by
    intro i st
    unfold mcmcStep
    obtain ⟨cands, hc⟩ := mapM_exists (candidate_ok e hb hf fuel)
      (st.walkers.mapIdx fun k w => propose e st.sigma st.mu w (rnd i k))
    rw [hc]
    simp only [bind, Except.bind, evaluate_rowwise e ll lp bb hrow]
    split <;> exact ⟨_, rfl⟩
  have hloop : ∀ n i st, e.nMax - i ≤ n → ∃ q, mcmcLoop e fuel rnd i st = .ok q := by
    intro n
    induction n with
    | zero =>
      intro i st hn
      rw [mcmcLoop]
      obtain ⟨st', hs⟩ := hstep (i + 1) st
      rw [hs]
      simp only
      split
      · exact ⟨_, rfl⟩
      · rw [if_pos (by omega)]; exact ⟨_, rfl⟩
    | succ n ih =>
      intro i st hn
      rw [mcmcLoop]
      obtain ⟨st', hs⟩ := hstep (i + 1) st
      rw [hs]
      simp only
      split
      · exact ⟨_, rfl⟩
      · split
        · exact ⟨_, rfl⟩
        · exact ih (i + 1) st' (by omega)
  obtain ⟨⟨st, n⟩, hq⟩ := hloop _ 0 (mcmcInit e ws) le_rfl
  have := loop_steps hq
  refine ⟨_, by unfold mcmc; rw [hq], ?_, ?_⟩
  · simpa using this.1
  · simpa using this.2

/-! ### C30 -/

theorem mean_unit (l : List F) (hl : l ≠ []) (h : ∀ a ∈ l, ∃ r : ℝ, a = fin r ∧ 0 ≤ r ∧ r ≤ 1) :
    ∃ m : ℝ, mean l = fin m ∧ 0 ≤ m ∧ m ≤ 1 := by
  obtain ⟨q, rfl⟩ := exists_map_fin (l := l) (fun a ha => by
    obtain ⟨r, rfl, -⟩ := h a ha
    rfl)
  have hq : q ≠ [] := by simpa using hl
  have hr : ∀ r ∈ q, 0 ≤ r ∧ r ≤ 1 := by
    intro r hr
    obtain ⟨r', h1, h2⟩ := h (fin r) (List.mem_map_of_mem hr)
    rw [fin_inj] at h1
    subst h1
    exact h2
  refine ⟨_, mean_fin q hq, ?_, ?_⟩
  · exact div_nonneg (List.sum_nonneg fun r h => (hr r h).1) (Nat.cast_nonneg _)
  · have hpos : (0 : ℝ) < q.length := by
      rw [Nat.cast_pos]; exact List.length_pos_iff.mpr hq
    rw [div_le_one hpos]
    have := List.sum_le_card_nsmul q 1 fun r h => (hr r h).2
    simpa using this

/-- The mean acceptance rate computed in any step is in [0,1]. -/
theorem step_accept_unit {e : McmcEnv d B} {fuel : ℕ} {rnd : ℕ → Draw d} {i : ℕ} {st st' : McmcState d B}
    (h : mcmcStep e fuel rnd i st = .ok st') (hne : st.walkers ≠ []) :
    st'.walkers ≠ [] ∧ ∃ m : ℝ, st'.accept = fin m ∧ 0 ≤ m ∧ m ≤ 1 := by
  have hw : st'.walkers ≠ [] := by
    have := (step_walker h).1
    intro hc
    rw [hc] at this
    exact hne (List.length_eq_zero_iff.mp this.symm)
  refine ⟨hw, ?_⟩
  obtain ⟨cands, props, ev, n, h1, h2, h3, h4, -⟩ := mcmcStep_ok h
  rw [h4]
  apply mean_unit
  · intro hc
    rw [List.map_eq_nil_iff] at hc
    rw [hc] at h3
    exact hw (by simpa using h3)
  · intro a ha
    obtain ⟨q, -, rfl⟩ := List.mem_map.mp ha
    exact alpha_range e st.mu q.1 q.2

theorem gain_range (i : ℕ) (a : ℝ) (ha : 0 ≤ a) :
    0 < 1 / ((i : ℝ) + 1) ^ a ∧ 1 / ((i : ℝ) + 1) ^ a ≤ 1 := by
  have h1 : (1 : ℝ) ≤ ((i : ℝ) + 1) ^ a := Real.one_le_rpow (by linarith [Nat.cast_nonneg (α := ℝ) i]) ha
  constructor
  · positivity
  · rw [div_le_one (by linarith)]; exact h1

theorem sigmaNext_pcn {k : Kern} (hk : k.isPcn = true) (hd : 0 < d) (i : ℕ) (s a : ℝ) (hs : 0 ≤ s) (hs' : s ≤ 0.99)
    (ha : 0 ≤ a) (ha' : a ≤ 1) : ∃ t : ℝ, sigmaNext k d i (fin s) (fin a) = fin t ∧ 0 ≤ t ∧ t ≤ 0.99 := by
  obtain ⟨g0, g1⟩ := gain_range i 0.75 (by norm_num)
  have hd' : (0 : ℝ) < Real.sqrt d := Real.sqrt_pos.mpr (by exact_mod_cast hd)
  have hc : 0 < 2.38 / Real.sqrt d := by positivity
  have key : ∃ t : ℝ, abs (minimum (fin s + fin (1 / ((i : ℝ) + 1) ^ (0.75 : ℝ)) * (fin a - fin 0.234))
      (minimum (fin 2.38 / fin (Real.sqrt d)) (fin 0.99))) = fin t ∧ 0 ≤ t ∧ t ≤ 0.99 := by
    rw [fin_div _ _ hd'.ne']
    simp only [fin_sub, fin_mul, fin_add, minimum_fin, abs_fin]
    refine ⟨_, rfl, abs_nonneg _, ?_⟩
    rw [abs_le]
    constructor
    · refine le_min ?_ (le_min (by linarith) (by norm_num))
      nlinarith
    · exact (min_le_right _ _).trans (min_le_right _ _)
  cases k with
  | ppcn => exact key
  | pcn => exact key
  | prwm => simp [Kern.isPcn] at hk
  | rwm => simp [Kern.isPcn] at hk

/-- **C30**, the t-pCN kernels: started with a non-negative scale, the scale is in [0, 0.99] at every step and on
return. -/
theorem C30_pcn_scale (e : McmcEnv d B) (hk : e.kernel.isPcn = true) (hd : 0 < d) (s0 : ℝ)
    (hs : e.proposalScale = fin s0) (hs0 : 0 ≤ s0) (fuel : ℕ) (rnd : ℕ → ℕ → Draw d) (ws : List (Walker d B))
    (hw : ws ≠ []) :
    (∃ s : ℝ, (mcmcInit e ws).sigma = fin s ∧ 0 ≤ s ∧ s ≤ 0.99) ∧
    (∀ i st st', mcmcStep e fuel (rnd i) i st = .ok st' → st.walkers ≠ [] →
      (∃ s : ℝ, st.sigma = fin s ∧ 0 ≤ s ∧ s ≤ 0.99) → ∃ s : ℝ, st'.sigma = fin s ∧ 0 ≤ s ∧ s ≤ 0.99) ∧
    ∀ r, mcmc e fuel rnd ws = .ok r → ∃ s : ℝ, r.proposalScale = fin s ∧ r.efficiency = fin s ∧ 0 ≤ s ∧ s ≤ 0.99 := by
  have hinit : ∃ s : ℝ, (mcmcInit e ws).sigma = fin s ∧ 0 ≤ s ∧ s ≤ 0.99 := by
    refine ⟨min s0 0.99, by simp [mcmcInit, hk, hs], le_min hs0 (by norm_num), min_le_right _ _⟩
  have hstep : ∀ i st st', mcmcStep e fuel (rnd i) i st = .ok st' → st.walkers ≠ [] →
      (∃ s : ℝ, st.sigma = fin s ∧ 0 ≤ s ∧ s ≤ 0.99) → ∃ s : ℝ, st'.sigma = fin s ∧ 0 ≤ s ∧ s ≤ 0.99 := by
    rintro i st st' h hne ⟨s, h1, h2, h3⟩
    obtain ⟨-, m, hm, m0, m1⟩ := step_accept_unit h hne
    obtain ⟨_, _, _, _, _, _, _, _, h5, _⟩ := mcmcStep_ok h
    rw [h5, hm, h1]
    exact sigmaNext_pcn hk hd i s m h2 h3 m0 m1
  refine ⟨hinit, hstep, fun r hr => ?_⟩
  obtain ⟨st, hl, -, he, -, -, hp, -⟩ := mcmc_ok hr
  have hfin := mcmcLoop_ind (fun st => st.walkers ≠ [] ∧ ∃ s : ℝ, st.sigma = fin s ∧ 0 ≤ s ∧ s ≤ 0.99)
    (fun i s s' hp hs => ⟨(step_accept_unit hs hp.1).1, hstep (i + 1) s s' hs hp.1 hp.2⟩)
    ⟨by simpa [mcmcInit] using hw, hinit⟩ hl
  obtain ⟨-, s, h1, h2, h3⟩ := hfin
  exact ⟨s, by rw [hp, h1], by rw [he, h1], h2, h3⟩

/-- **C30**, the random-walk kernel without a flow: the scale, hence the efficiency, is never negative after a step. -/
theorem C30_rwm_scale (e : McmcEnv d B) (hk : e.kernel = .rwm) (s0 : ℝ) (hs : e.proposalScale = fin s0) (fuel : ℕ)
    (rnd : ℕ → ℕ → Draw d) (ws : List (Walker d B)) (hw : ws ≠ []) (r : McmcResult d B)
    (hr : mcmc e fuel rnd ws = .ok r) : ∃ s : ℝ, r.proposalScale = fin s ∧ r.efficiency = fin s ∧ 0 ≤ s := by
  obtain ⟨st, hl, -, he, -, -, hp, -⟩ := mcmc_ok hr
  have hstep : ∀ i s s', (s.walkers ≠ [] ∧ ∃ t : ℝ, s.sigma = fin t) → mcmcStep e fuel (rnd (i + 1)) (i + 1) s = .ok s' →
      (s'.walkers ≠ [] ∧ ∃ t : ℝ, s'.sigma = fin t ∧ 0 ≤ t) := by
    rintro i s s' ⟨h1, t, h2⟩ h
    obtain ⟨hne, m, hm, m0, m1⟩ := step_accept_unit h h1
    obtain ⟨_, _, _, _, _, _, _, _, h5, _⟩ := mcmcStep_ok h
    refine ⟨hne, _, ?_, abs_nonneg (t + 1 / (((i + 1 : ℕ) : ℝ) + 1) * (m - 0.234))⟩
    rw [h5, hm, h2, hk]
    simp only [sigmaNext, fin_sub, fin_mul, fin_add, abs_fin]
  -- the loop makes at least one step
  rw [mcmcLoop] at hl
  cases h1 : mcmcStep e fuel (rnd 1) 1 (mcmcInit e ws) with
  | error x => simp [h1] at hl
  | ok st1 =>
    have hst1 := hstep 0 (mcmcInit e ws) st1 ⟨by simpa [mcmcInit] using hw, s0, by simp [mcmcInit, hk, Kern.isPcn, hs]⟩ h1
    simp only [Nat.zero_add, h1] at hl
    have hst : st.walkers ≠ [] ∧ ∃ t : ℝ, st.sigma = fin t ∧ 0 ≤ t := by
      split at hl
      · simp only [Except.ok.injEq, Prod.mk.injEq] at hl; rw [← hl.1]; exact hst1
      · split at hl
        · simp only [Except.ok.injEq, Prod.mk.injEq] at hl; rw [← hl.1]; exact hst1
        · exact mcmcLoop_ind (fun st => st.walkers ≠ [] ∧ ∃ t : ℝ, st.sigma = fin t ∧ 0 ≤ t)
            (fun i s s' hp hs => hstep i s s' ⟨hp.1, hp.2.imp fun _ h => h.1⟩ hs) hst1 hl
    obtain ⟨-, s, h2, h3⟩ := hst
    exact ⟨s, by rw [hp, h2], by rw [he, h2], h3⟩

/-- A concrete environment: two parameters without bounds, identity flow, prior log-density 0 and a given log-likelihood. -/
noncomputable def exampleEnv (k : Kern) (ll : Pt 2 → F) (scale : ℝ) : McmcEnv 2 Unit where
  kernel := k
  logLike := fun xs => .ok (xs.map ll, none)
  logPrior := fun xs => xs.map fun _ => fin 0
  scaler := { low := fun _ => ninf, high := fun _ => pinf, periodic := none, reflective := none, transform := .probit,
              scale := false, affine := none }
  flowFwd := fun u => (u, fin 0)
  flowInv := fun p => (p, fin 0)
  tMean := fun _ => fin 0
  tNu := fin 5
  invCov := fun i j => if i = j then fin 1 else fin 0
  cholCov := fun i j => if i = j then fin 1 else fin 0
  beta := fin 1
  nMax := 1
  nSteps := 1
  proposalScale := fin scale
  haveBlobs := false

theorem exampleEnv_rowwise (k : Kern) (ll : Pt 2 → F) (scale : ℝ) :
    RowWise (exampleEnv k ll scale) ll (fun _ => fin 0) (fun _ => ()) where
  prior := fun xs => rfl
  like := fun xs => ⟨none, rfl, by simp [exampleEnv], by simp [exampleEnv]⟩

theorem exampleEnv_bounds (k : Kern) (ll : Pt 2 → F) (scale : ℝ) :
    ProperBounds (exampleEnv k ll scale).scaler.low (exampleEnv k ll scale).scaler.high :=
  fun _ => ⟨by simp [exampleEnv], by simp [exampleEnv], by simp [exampleEnv]⟩

/-- A walker at the point `t` of the example. -/
def exampleWalker (ll : Pt 2 → F) (t : ℝ) : Walker 2 Unit where
  theta := fun _ => fin t
  u := fun _ => fin t
  x := fun _ => fin t
  logdetj := fin 0
  logdetjFlow := fin 0
  logl := ll fun _ => fin t
  logp := fin 0
  blob := none

theorem exampleWalker_belongs (k : Kern) (ll : Pt 2 → F) (scale t : ℝ) :
    Belongs (exampleEnv k ll scale).scaler ll (fun _ => fin 0) (fun _ => ()) false (exampleWalker ll t) := by
  refine ⟨?_, rfl, rfl, by simp⟩
  simp only [exampleEnv, exampleWalker, Scaler.inverseRow, Scaler.invRow, Bool.false_eq_true, if_false, Except.ok.injEq,
    Prod.mk.injEq]
  constructor
  · funext i
    simp [invCoord, createMasks, F.isfinite]
  · simp [invCoord, createMasks, F.isfinite, F.sum]

/-- The hypotheses of C25, C26, C28, C29, C30 hold together for the example with the log-likelihood -x²/2, for every
kernel, so the MCMC phase returns and their conclusions apply. -/
example (k : Kern) (rnd : ℕ → ℕ → Draw 2) (hr : Uniform rnd) :
    ∃ r, mcmc (exampleEnv k (fun x => -(sq (x 0)) / fin 2) 0.5) 0 rnd
        [exampleWalker (fun x => -(sq (x 0)) / fin 2) 1, exampleWalker (fun x => -(sq (x 0)) / fin 2) (-2)] = .ok r ∧
      r.walkers.length = 2 ∧ r.steps = 1 ∧ r.calls = r.evaluated.length ∧
      ∀ w ∈ r.walkers, w.logl = -(sq (w.x 0)) / fin 2 := by
  obtain ⟨r, h1, h2, h3⟩ := C28_terminates (exampleEnv k (fun x => -(sq (x 0)) / fin 2) 0.5)
    (exampleEnv_bounds _ _ _) (by simp [exampleEnv]) _ _ _ (exampleEnv_rowwise _ _ _) 0 rnd
    [exampleWalker (fun x => -(sq (x 0)) / fin 2) 1, exampleWalker (fun x => -(sq (x 0)) / fin 2) (-2)]
  refine ⟨r, h1, ?_, le_antisymm h3 h2, (C26_likelihood_calls _ _ _ _ (exampleEnv_rowwise _ _ _) 0 rnd _ r h1).2, ?_⟩
  · simpa using (C25_invalid_rejected _ 1 rfl zero_le_one 0 rnd hr _ r h1).1
  · intro w hw
    refine (C29_mcmc _ 1 rfl zero_le_one _ _ _ (exampleEnv_rowwise _ _ _) 0 rnd hr _ ?_ r h1 w hw).2.2.1
    intro v hv
    simp only [List.mem_cons, List.not_mem_nil, or_false] at hv
    rcases hv with rfl | rfl <;> exact exampleWalker_belongs k _ 0.5 _

/-- **C30** is false for the random-walk kernel with a flow: there the new scale is not made non-negative.  Started with
scale 0.1, one step in which every proposal is rejected gives a negative scale and a negative efficiency. -/
theorem C30_prwm_negative : ∃ (e : McmcEnv 2 Unit) (ws : List (Walker 2 Unit)), e.kernel = .prwm ∧ e.proposalScale = fin 0.1 ∧
    ∀ (fuel : ℕ) (rnd : ℕ → ℕ → Draw 2), ∃ r s, mcmc e fuel rnd ws = .ok r ∧ r.efficiency = fin s ∧ s < 0 := by
  refine ⟨exampleEnv .prwm (fun _ => ninf) 0.1, [exampleWalker (fun _ => fin 0) 0], rfl, rfl, fun fuel rnd => ?_⟩
  obtain ⟨r, hr, -, hs⟩ := C28_terminates (exampleEnv .prwm (fun _ => ninf) 0.1)
    (exampleEnv_bounds _ _ _) (by simp [exampleEnv]) _ _ _ (exampleEnv_rowwise _ _ _) fuel rnd
    [exampleWalker (fun _ => fin 0) 0]
  obtain ⟨st, hl, -, he, -⟩ := mcmc_ok hr
  rw [mcmcLoop] at hl
  cases h1 : mcmcStep (exampleEnv .prwm (fun _ => ninf) 0.1) fuel (rnd 1) 1
    (mcmcInit (exampleEnv .prwm (fun _ => ninf) 0.1) [exampleWalker (fun _ => fin 0) 0]) with
  | error x => simp [h1] at hl
  | ok st1 =>
    have hst : st = st1 := by
      simp only [Nat.zero_add, h1] at hl
      have hn : (exampleEnv .prwm (fun _ => ninf) 0.1).nMax ≤ 1 := by simp [exampleEnv]
      rw [if_pos hn] at hl
      split at hl <;> simp only [Except.ok.injEq, Prod.mk.injEq] at hl <;> exact hl.1.symm
    subst hst
    have hacc := step_accept_unit h1 (by simp [mcmcInit])
    obtain ⟨cands, props, ev, n, h2, h3, h4, h5, h6, -⟩ := mcmcStep_ok h1
    have hm : st.accept = fin 0 := by
      rw [evaluate_rowwise _ _ _ _ (exampleEnv_rowwise _ _ _)] at h3
      simp only [Except.ok.injEq, Prod.mk.injEq] at h3
      have hz : ((mcmcInit (exampleEnv .prwm (fun _ => ninf) 0.1) [exampleWalker (fun _ => fin 0) 0]).walkers.zip
          props).map (fun q => alpha (exampleEnv .prwm (fun _ => ninf) 0.1)
            (mcmcInit (exampleEnv .prwm (fun _ => ninf) 0.1) [exampleWalker (fun _ => fin 0) 0]).mu q.1 q.2)
          = (List.replicate ((mcmcInit (exampleEnv .prwm (fun _ => ninf) 0.1)
              [exampleWalker (fun _ => fin 0) 0]).walkers.zip props).length (0 : ℝ)).map fin := by
        rw [List.map_replicate, List.eq_replicate_iff]
        refine ⟨by simp, fun b hb => ?_⟩
        obtain ⟨q, hq, rfl⟩ := List.mem_map.mp hb
        refine alpha_bad _ 1 rfl zero_le_one _ _ _ ?_
        have := (List.of_mem_zip hq).2
        rw [← h3.1] at this
        obtain ⟨c, -, hc⟩ := List.mem_map.mp this
        rw [← hc]
        right
        simp
      rw [h5, hz, mean_fin]
      · simp
      · intro hc
        rw [List.replicate_eq_nil_iff, List.length_eq_zero_iff] at hc
        rw [hc] at h4
        exact hacc.1 (by simpa using h4)
    refine ⟨r, 0.1 + 1 / (((1 : ℕ) : ℝ) + 1) * (0 - 0.234), hr, ?_, ?_⟩
    · rw [he, h6, hm]
      simp only [sigmaNext, exampleEnv, mcmcInit, Kern.isPcn, Bool.false_eq_true, if_false, fin_sub, fin_mul, fin_add]
    · norm_num

/-! ### C33 -/

/-- The same problem with `c` added to every log-likelihood. -/
noncomputable def Spec.shiftEnv (c : ℝ) (e : McmcEnv d B) : McmcEnv d B :=
  { e with logLike := fun xs => (e.logLike xs).map fun r => (r.1.map (· + fin c), r.2) }

/-- The same walker with `c` added to the stored log-likelihood. -/
noncomputable def Spec.shiftWalker (c : ℝ) (w : Walker d B) : Walker d B := { w with logl := w.logl + fin c }

/-- The same result with `c` added to the stored log-likelihoods. -/
noncomputable def Spec.shiftResult (c : ℝ) (r : McmcResult d B) : McmcResult d B :=
  { r with walkers := r.walkers.map (shiftWalker c) }

noncomputable def shiftState (c : ℝ) (st : McmcState d B) : McmcState d B :=
  { st with walkers := st.walkers.map (shiftWalker c), best := st.best + fin c }

theorem scatter_shift (c : ℝ) (mask : List Bool) (vals : List F) :
    scatter ninf mask (vals.map (· + fin c)) = (scatter ninf mask vals).map (List.map (· + fin c)) := by
  induction mask generalizing vals with
  | nil => cases vals <;> simp [scatter, Except.map]
  | cons b mask ih =>
    cases b with
    | false =>
      simp only [scatter, ih]
      cases scatter ninf mask vals <;> simp [Except.map]
    | true =>
      cases vals with
      | nil => simp [scatter, Except.map]
      | cons v vs =>
        simp only [List.map_cons, scatter, ih]
        cases scatter ninf mask vs <;> simp [Except.map]

theorem add_fin_mul (p : F) (b c : ℝ) : (p + fin c) * fin b = p * fin b + fin (c * b) := by
  have h : ∀ r q : ℝ, infMul r + fin q = infMul r := by
    intro r q
    unfold infMul
    split
    · rfl
    · split <;> rfl
  cases p with
  | nan => simp
  | ninf => exact (h _ _).symm
  | pinf => exact (h _ _).symm
  | fin p => simp [add_mul]

theorem sub_add_fin (a b : F) (c : ℝ) : (a + fin c) - (b + fin c) = a - b := by
  cases a <;> cases b <;> simp [sub_def]

theorem add_fin_lt (a b : F) (c : ℝ) : (a + fin c < b + fin c) ↔ a < b := by
  cases a <;> cases b <;> simp

theorem mean_shift (l : List F) (c : ℝ) : mean (l.map (· + fin c)) = mean l + fin c := by
  by_cases hl : l = []
  · subst hl
    have : (fin 0 / fin 0 : F) = nan := by
      show F.div _ _ = _
      simp [F.div]
    simp [mean, F.ofNat, this]
  have hs : sum (l.map (· + fin c)) = sum l + fin (l.length * c) := by
    clear hl
    induction l with
    | nil => simp [F.sum]; rfl
    | cons a l ih =>
      rw [List.map_cons, sum_cons, ih, sum_cons, List.length_cons, add_add_add_comm, fin_add]
      push_cast
      ring_nf
  have hpos : (0 : ℝ) < l.length := by rw [Nat.cast_pos]; exact List.length_pos_iff.mpr hl
  unfold mean
  rw [hs, List.length_map]
  unfold F.ofNat
  cases sum l with
  | nan => simp
  | ninf =>
    show F.div _ _ = F.div _ _ + _
    simp [F.div, hpos.le, not_lt.mpr hpos.le]
  | pinf =>
    show F.div _ _ = F.div _ _ + _
    simp [F.div, not_lt.mpr hpos.le]
  | fin r =>
    rw [fin_add, fin_div _ _ hpos.ne', fin_div _ _ hpos.ne', fin_add]
    congr 1
    field_simp

theorem monitor_shift (c : ℝ) (k : Kern) (ws : List (Walker d B)) :
    monitor k (ws.map (shiftWalker c)) = monitor k ws + fin c := by
  unfold monitor
  rw [← mean_shift, List.map_map, List.map_map]
  congr 1
  apply List.map_congr_left
  intro w _
  simp only [Function.comp, shiftWalker]
  split
  · rw [add_right_comm]
  · rw [add_right_comm, add_right_comm (w.logl + fin c)]
    rw [add_right_comm w.logl, add_right_comm (w.logl + w.logp), add_right_comm (w.logl)]

theorem alpha_shift (c : ℝ) (e : McmcEnv d B) (b : ℝ) (hβ : e.beta = fin b) (mu : Pt d) (w p : Walker d B) :
    alpha (shiftEnv c e) mu (shiftWalker c w) (shiftWalker c p) = alpha e mu w p := by
  have hexp : metropolisExponent (shiftEnv c e) mu (shiftWalker c w) (shiftWalker c p) = metropolisExponent e mu w p := by
    unfold metropolisExponent
    simp only [shiftEnv, shiftWalker, hβ, add_fin_mul, sub_add_fin]
    rfl
  unfold alpha
  rw [hexp]

theorem evaluate_shift (c : ℝ) (e : McmcEnv d B) (cands : List (Walker d B)) :
    evaluate (shiftEnv c e) cands = (evaluate e cands).map fun r => (r.1.map (shiftWalker c), r.2) := by
  unfold evaluate
  simp only [bind, Except.bind]
  have e1 : (shiftEnv c e).logPrior = e.logPrior := rfl
  have e2 : (shiftEnv c e).haveBlobs = e.haveBlobs := rfl
  rw [e1, e2]
  cases scatter ninf (cands.map finiteMask) (e.logPrior (maskSelect (cands.map finiteMask) (cands.map fun x => x.x))) with
  | error x => rfl
  | ok logp =>
    simp only
    have e3 : ∀ xs, (shiftEnv c e).logLike xs = (e.logLike xs).map fun r => (r.1.map (· + fin c), r.2) := fun _ => rfl
    rw [e3]
    generalize List.zipWith (fun m lp => m && F.isfinite lp) (cands.map finiteMask) logp = mask
    cases e.logLike (maskSelect mask (cands.map fun x => x.x)) with
    | error x => rfl
    | ok r =>
      simp only [Except.map, scatter_shift]
      cases scatter ninf mask r.1 with
      | error x => rfl
      | ok logl =>
        simp only
        cases scatterBlobs e.haveBlobs r.2 mask with
        | error x => rfl
        | ok blobs =>
          simp only [pure, Except.pure, Except.ok.injEq, Prod.mk.injEq, and_true]
          generalize logp.zip blobs = q
          induction cands generalizing logl q with
          | nil => rfl
          | cons a cands ih =>
            cases logl with
            | nil => simp
            | cons l logl =>
              cases q with
              | nil => simp
              | cons q qs => simp [shiftWalker, ih]

theorem mapIdx_map' {α β γ : Type} (f : ℕ → β → γ) (g : α → β) (l : List α) :
    (l.map g).mapIdx f = l.mapIdx fun k a => f k (g a) := by
  apply List.ext_getElem?
  intro k
  simp [List.getElem?_mapIdx, Function.comp_def]

theorem map_mapIdx' {α β γ : Type} (f : ℕ → α → β) (g : β → γ) (l : List α) :
    (l.mapIdx f).map g = l.mapIdx fun k a => g (f k a) := by
  apply List.ext_getElem?
  intro k
  simp [List.getElem?_mapIdx, Function.comp_def]

theorem mcmcStep_shift (c : ℝ) (e : McmcEnv d B) (b : ℝ) (hβ : e.beta = fin b) (fuel : ℕ) (rnd : ℕ → Draw d) (i : ℕ)
    (st : McmcState d B) :
    mcmcStep (shiftEnv c e) fuel rnd i (shiftState c st) = (mcmcStep e fuel rnd i st).map (shiftState c) := by
  unfold mcmcStep
  have e0 : (shiftState c st).walkers = st.walkers.map (shiftWalker c) := rfl
  have e1 : ((shiftState c st).walkers.mapIdx fun k w =>
      propose (shiftEnv c e) (shiftState c st).sigma (shiftState c st).mu w (rnd k))
      = st.walkers.mapIdx fun k w => propose e st.sigma st.mu w (rnd k) := by
    rw [e0, mapIdx_map']
    rfl
  have e2 : candidate (shiftEnv c e) fuel = candidate e fuel := rfl
  rw [e1, e2]
  cases (st.walkers.mapIdx fun k w => propose e st.sigma st.mu w (rnd k)).mapM (candidate e fuel) with
  | error x => rfl
  | ok cands =>
    simp only [bind, Except.bind, evaluate_shift]
    cases evaluate e cands with
    | error x => rfl
    | ok r =>
      obtain ⟨props, ev, n⟩ := r
      simp only [Except.map]
      have ez : (shiftState c st).walkers.zip (props.map (shiftWalker c))
          = (st.walkers.zip props).map fun q => (shiftWalker c q.1, shiftWalker c q.2) := by
        rw [e0, List.zip_map]; rfl
      have ea : (((shiftState c st).walkers.zip (props.map (shiftWalker c))).map fun q =>
          alpha (shiftEnv c e) (shiftState c st).mu q.1 q.2)
          = (st.walkers.zip props).map fun q => alpha e st.mu q.1 q.2 := by
        rw [ez, List.map_map]
        apply List.map_congr_left
        intro q _
        exact alpha_shift c e b hβ st.mu q.1 q.2
      have ew : (((shiftState c st).walkers.zip (props.map (shiftWalker c))).mapIdx fun k q =>
          if (rnd k).rand < alpha (shiftEnv c e) (shiftState c st).mu q.1 q.2 then q.2 else q.1)
          = ((st.walkers.zip props).mapIdx fun k q =>
              if (rnd k).rand < alpha e st.mu q.1 q.2 then q.2 else q.1).map (shiftWalker c) := by
        rw [ez, mapIdx_map', map_mapIdx']
        congr 1
        funext k q
        have : alpha (shiftEnv c e) (shiftState c st).mu (shiftWalker c q.1) (shiftWalker c q.2) = alpha e st.mu q.1 q.2 :=
          alpha_shift c e b hβ st.mu q.1 q.2
        simp only [Function.comp, this]
        split <;> rfl
      rw [ea, ew]
      have em : (shiftEnv c e).kernel = e.kernel := rfl
      rw [em, monitor_shift]
      have eb : (shiftState c st).best = st.best + fin c := rfl
      rw [eb]
      simp only [gt_iff_lt, add_fin_lt]
      have emu : muNext e.kernel i (shiftState c st).mu (((st.walkers.zip props).mapIdx fun k q =>
              if (rnd k).rand < alpha e st.mu q.1 q.2 then q.2 else q.1).map (shiftWalker c))
          = muNext e.kernel i st.mu ((st.walkers.zip props).mapIdx fun k q =>
              if (rnd k).rand < alpha e st.mu q.1 q.2 then q.2 else q.1) := by
        unfold muNext
        split
        · funext j
          rw [List.map_map]
          rfl
        · rfl
      rw [emu]
      split <;> rfl

theorem mcmcLoop_shift (c : ℝ) (e : McmcEnv d B) (b : ℝ) (hβ : e.beta = fin b) (fuel : ℕ) (rnd : ℕ → ℕ → Draw d) (i : ℕ)
    (st : McmcState d B) :
    mcmcLoop (shiftEnv c e) fuel rnd i (shiftState c st)
      = (mcmcLoop e fuel rnd i st).map fun q => (shiftState c q.1, q.2) := by
  fun_induction mcmcLoop e fuel rnd i st with
  | case1 i st x hs =>
    rw [mcmcLoop, mcmcStep_shift c e b hβ, hs]; rfl
  | case2 i st st1 hs hstop =>
    rw [mcmcLoop, mcmcStep_shift c e b hβ, hs]
    simp only [Except.map]
    rw [if_pos (show (shiftState c st1).stop = true from hstop)]
  | case3 i st st1 hs hstop hn =>
    rw [mcmcLoop, mcmcStep_shift c e b hβ, hs]
    simp only [Except.map]
    rw [if_neg (show ¬ (shiftState c st1).stop = true from hstop), if_pos (show (shiftEnv c e).nMax ≤ i + 1 from hn)]
  | case4 i st st1 hs hstop hn ih =>
    rw [mcmcLoop, mcmcStep_shift c e b hβ, hs]
    simp only [Except.map]
    rw [if_neg (show ¬ (shiftState c st1).stop = true from hstop), if_neg (show ¬ (shiftEnv c e).nMax ≤ i + 1 from hn), ih]
    rfl

/-- **C33.** With the same random numbers, adding a constant to every log-likelihood changes nothing in the result of the
MCMC phase (points, scale, acceptance, steps, calls, or the error raised) but the stored log-likelihoods, which shift by
that constant.  This holds for every kernel and also for infinite or NaN log-likelihoods. -/
theorem C33_shift_invariance (c : ℝ) (e : McmcEnv d B) (b : ℝ) (hβ : e.beta = fin b) (fuel : ℕ)
    (rnd : ℕ → ℕ → Draw d) (ws : List (Walker d B)) :
    mcmc (shiftEnv c e) fuel rnd (ws.map (shiftWalker c)) = (mcmc e fuel rnd ws).map (shiftResult c) := by
  have h0 : mcmcInit (shiftEnv c e) (ws.map (shiftWalker c)) = shiftState c (mcmcInit e ws) := by
    unfold mcmcInit
    simp only [shiftState]
    have hw : (ws.map (shiftWalker c)).map (fun w =>
        if (shiftEnv c e).kernel.hasFlow = true then
          { w with theta := ((shiftEnv c e).flowFwd w.u).1, logdetjFlow := ((shiftEnv c e).flowFwd w.u).2 }
        else { w with theta := w.u, logdetjFlow := fin 0 })
        = (ws.map fun w => if e.kernel.hasFlow = true then
          { w with theta := (e.flowFwd w.u).1, logdetjFlow := (e.flowFwd w.u).2 }
        else { w with theta := w.u, logdetjFlow := fin 0 }).map (shiftWalker c) := by
      rw [List.map_map, List.map_map]
      apply List.map_congr_left
      intro w _
      simp only [Function.comp]
      by_cases h : e.kernel.hasFlow = true
      · rw [if_pos h, if_pos (show (shiftEnv c e).kernel.hasFlow = true from h)]; rfl
      · rw [if_neg h, if_neg (show ¬ (shiftEnv c e).kernel.hasFlow = true from h)]; rfl
    rw [hw]
    have em : (shiftEnv c e).kernel = e.kernel := rfl
    rw [em, monitor_shift]
    rfl
  unfold mcmc
  rw [h0, mcmcLoop_shift c e b hβ]
  cases mcmcLoop e fuel rnd 0 (mcmcInit e ws) with
  | error x => rfl
  | ok q => rfl

/-- The example problem, shifted: C33 applies and there is a result. -/
example (k : Kern) (rnd : ℕ → ℕ → Draw 2) (ws : List (Walker 2 Unit)) :
    ∃ r, mcmc (exampleEnv k (fun x => -(sq (x 0)) / fin 2) 0.5) 0 rnd ws = .ok r ∧
      mcmc (shiftEnv 7 (exampleEnv k (fun x => -(sq (x 0)) / fin 2) 0.5)) 0 rnd (ws.map (shiftWalker 7))
        = .ok (shiftResult 7 r) := by
  obtain ⟨r, h1, -⟩ := C28_terminates (exampleEnv k (fun x => -(sq (x 0)) / fin 2) 0.5)
    (exampleEnv_bounds _ _ _) (by simp [exampleEnv]) _ _ _ (exampleEnv_rowwise _ _ _) 0 rnd ws
  refine ⟨r, h1, ?_⟩
  rw [C33_shift_invariance 7 _ 1 rfl, h1]
  rfl

end Poco
