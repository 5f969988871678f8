import Verif.Spec.Between
import Verif.Props.ZeroRegion
import Verif.Props.Posterior
import Verif.Props.Termination

/-! # C147: the evidence lies between the extremes of the likelihood -/

namespace Poco
open F Spec

/-! ### weights -/

/-- A weight at `β` lies between `exp (β m)` and `exp (β M)` if the history is at lower temperatures and its evidences are
within bounds. -/
theorem weight_within {h : List Stage} (hne : h ≠ []) {m M β l : ℝ} (hβ : ∀ s ∈ h, s.beta ≤ β)
    (hz : ∀ s ∈ h, s.beta * m ≤ s.logz ∧ s.logz ≤ s.beta * M) (hl : m ≤ l ∧ l ≤ M) :
    Real.exp (β * m) ≤ weight h β l ∧ weight h β l ≤ Real.exp (β * M) := by
  have hlen := length_pos_real hne
  have up : mixture h l ≤ Real.exp (β * (l - m)) := by
    unfold mixture
    rw [div_le_iff₀ hlen]
    have := List.sum_le_card_nsmul (h.map fun s => Real.exp (l * s.beta) / Real.exp s.logz) (Real.exp (β * (l - m))) (by
      intro x hx
      obtain ⟨s, hs, rfl⟩ := List.mem_map.1 hx
      rw [← Real.exp_sub]
      refine Real.exp_le_exp.2 ?_
      nlinarith [hz s hs, hβ s hs, mul_nonneg (sub_nonneg.2 (hβ s hs)) (sub_nonneg.2 hl.1)])
    simp only [List.length_map, nsmul_eq_mul] at this
    linarith
  have low : Real.exp (-(β * (M - l))) ≤ mixture h l := by
    unfold mixture
    rw [le_div_iff₀ hlen]
    have := List.card_nsmul_le_sum (h.map fun s => Real.exp (l * s.beta) / Real.exp s.logz) (Real.exp (-(β * (M - l)))) (by
      intro x hx
      obtain ⟨s, hs, rfl⟩ := List.mem_map.1 hx
      rw [← Real.exp_sub]
      refine Real.exp_le_exp.2 ?_
      nlinarith [hz s hs, hβ s hs, mul_nonneg (sub_nonneg.2 (hβ s hs)) (sub_nonneg.2 hl.2)])
    simp only [List.length_map, nsmul_eq_mul] at this
    linarith
  have hpos := mixture_pos h hne l
  unfold weight
  constructor
  · rw [le_div_iff₀ hpos]
    calc Real.exp (β * m) * mixture h l ≤ Real.exp (β * m) * Real.exp (β * (l - m)) := by
          exact mul_le_mul_of_nonneg_left up (Real.exp_pos _).le
      _ = Real.exp (l * β) := by rw [← Real.exp_add]; congr 1; ring
  · rw [div_le_iff₀ hpos]
    calc Real.exp (l * β) = Real.exp (β * M) * Real.exp (-(β * (M - l))) := by rw [← Real.exp_add]; congr 1; ring
      _ ≤ Real.exp (β * M) * mixture h l := mul_le_mul_of_nonneg_left low (Real.exp_pos _).le

theorem logz_within {h : List Stage} {n : ℕ} (hr : Rect h n) {m M β : ℝ} (hβ : ∀ s ∈ h, s.beta ≤ β)
    (hz : ∀ s ∈ h, s.beta * m ≤ s.logz ∧ s.logz ≤ s.beta * M) (hl : ∀ l ∈ allLogl h, m ≤ l ∧ l ≤ M) :
    β * m ≤ Real.log (totalWeight h β / (allLogl h).length) ∧ Real.log (totalWeight h β / (allLogl h).length) ≤ β * M := by
  have hlen := length_pos_real hr.allLogl_ne
  have hpos : 0 < totalWeight h β / (allLogl h).length := div_pos (totalWeight_pos hr β) hlen
  have h1 := List.card_nsmul_le_sum ((allLogl h).map (weight h β)) (Real.exp (β * m)) (by
    intro x hx
    obtain ⟨l, hl', rfl⟩ := List.mem_map.1 hx
    exact (weight_within hr.1 hβ hz (hl l hl')).1)
  have h2 := List.sum_le_card_nsmul ((allLogl h).map (weight h β)) (Real.exp (β * M)) (by
    intro x hx
    obtain ⟨l, hl', rfl⟩ := List.mem_map.1 hx
    exact (weight_within hr.1 hβ hz (hl l hl')).2)
  simp only [List.length_map, nsmul_eq_mul] at h1 h2
  rw [Real.le_log_iff_exp_le hpos, Real.log_le_iff_le_exp hpos, le_div_iff₀ hlen, div_le_iff₀ hlen]
  unfold totalWeight
  constructor <;> linarith

/-- The effective sample size of weights that differ at most by a factor `b / a`. -/
theorem ess_within {w : List ℝ} (hw : w ≠ []) {a b : ℝ} (ha : 0 < a) (h : ∀ x ∈ w, a ≤ x ∧ x ≤ b) :
    4 * (a * b) / (a + b) ^ 2 * w.length ≤ ess w := by
  have hlen := length_pos_real hw
  have key : ∀ w : List ℝ, (∀ x ∈ w, a ≤ x ∧ x ≤ b) → (w.map (· ^ 2)).sum ≤ (a + b) * w.sum - w.length * (a * b) := by
    intro w hw
    induction w with
    | nil => simp
    | cons x w ih =>
      have h1 := hw x (by simp)
      have h2 := ih fun y hy => hw y (by simp [hy])
      simp only [List.map_cons, List.sum_cons, List.length_cons, Nat.cast_add, Nat.cast_one]
      nlinarith [mul_nonneg (sub_nonneg.2 h1.1) (sub_nonneg.2 h1.2)]
  obtain ⟨x, hx⟩ := List.exists_mem_of_ne_nil w hw
  have hb : 0 < b := ha.trans_le ((h x hx).1.trans (h x hx).2)
  have hs : w.sum ≠ 0 := by
    have := List.card_nsmul_le_sum w a fun x hx => (h x hx).1
    simp only [nsmul_eq_mul] at this
    have : 0 < w.length * a := mul_pos hlen ha
    linarith
  have hq := list_sumsq_pos w hs
  unfold ess
  rw [le_div_iff₀ hq]
  have h1 := key w h
  have hab : 0 < (a + b) ^ 2 := by positivity
  have hc : 0 < 4 * (a * b) / (a + b) ^ 2 * w.length := by positivity
  refine (mul_le_mul_of_nonneg_left h1 hc.le).trans ?_
  have : w.sum ^ 2 - 4 * (a * b) / (a + b) ^ 2 * w.length * ((a + b) * w.sum - w.length * (a * b)) =
      (w.sum - 2 * w.length * (a * b) / (a + b)) ^ 2 := by
    field_simp
    ring
  nlinarith [sq_nonneg (w.sum - 2 * w.length * (a * b) / (a + b))]

/-! ### runs -/

section
variable {d : ℕ} {B Φ : Type} {e : SamplerEnv d B Φ} {rnd : Rnd d Φ} {ll lp : Pt d → F} {bb : Pt d → List B} {hb : Bool}

/-- What an iteration of the main loop appends to the three columns. -/
theorem smcStep_cols {fuel : ℕ} {s s' : Sampler d B Φ} (h : smcStep e rnd fuel s = .ok s') :
    ∃ β z ess ls, chooseBeta s.particles.past e.metric (F.ofNat s.nEffective) fuel = .ok (β, z, ess) ∧
      s'.particles.past.beta = s.particles.past.beta ++ [β] ∧ s'.particles.past.logz = s.particles.past.logz ++ [z] ∧
      s'.particles.past.logl = s.particles.past.logl ++ [ls] := by
  obtain ⟨c, s1, c1, s2, c2, s3, c3, h0, h1, h2, h3, h4, rfl⟩ := smcStep_ok h
  obtain ⟨nEff, beta, logz, ess, w, tr, k1, -, -, g, rfl⟩ := reweight_ok h1
  obtain ⟨-, g2, g3, -⟩ := gatherCur_keeps g
  obtain ⟨-, r2, r3, -⟩ := resampleStep_keeps h3
  obtain ⟨-, m2, m3, -, m5⟩ := mutate_keeps h4
  have h2' : s2.particles = s.particles := by
    rcases train_ok h2 with ⟨-, f, g, rfl⟩ | ⟨-, g, rfl⟩ <;> rfl
  refine ⟨beta, logz, ess, c3.it.logl, k1, ?_, ?_, ?_⟩
  · show (s3.particles.update (Cols.full c3.it)).past.beta = _
    rw [m5, h2', ← g2, ← r2, ← m2]
    rfl
  · show (s3.particles.update (Cols.full c3.it)).past.logz = _
    rw [m5, h2', ← g3, ← r3, ← m3]
    rfl
  · show (s3.particles.update (Cols.full c3.it)).past.logl = _
    rw [m5, h2']
    rfl

theorem zip_stages {past : Cols d (List B) List} {H : List Stage} (hH : Holds past H) :
    past.beta.zip past.logz = H.map fun s => (fin s.beta, fin s.logz) := by
  rw [hH.2.1, hH.2.2, List.zip_map', ]

theorem stages_logl {past : Cols d (List B) List} {H : List Stage} (hH : Holds past H) {m M : ℝ} (hm : LoglWithin past m M) :
    ∀ l ∈ allLogl H, m ≤ l ∧ l ≤ M := by
  intro l hl
  obtain ⟨s, hs, hl⟩ := List.mem_flatMap.1 hl
  have := hm (fin l) (by
    rw [hH.1]
    exact List.mem_flatten.2 ⟨_, List.mem_map_of_mem hs, List.mem_map_of_mem hl⟩)
  simpa using this

theorem stages_logz {past : Cols d (List B) List} {H : List Stage} (hH : Holds past H) {m M : ℝ} (hm : EvidenceWithin past m M) :
    ∀ s ∈ H, s.beta * m ≤ s.logz ∧ s.logz ≤ s.beta * M := by
  intro s hs
  refine hm _ _ ?_
  rw [zip_stages hH]
  exact List.mem_map.2 ⟨s, hs, rfl⟩

/-- The history of a state, as stages with non-decreasing temperatures. -/
theorem Inv.ordered (hc : Configured e) {s : Sampler d B Φ} {its : List (Iter d (List B))} (h : Inv e ll lp bb hb s its)
    (hp : ProperLike ll) (hne : its ≠ []) :
    ∃ H : List Stage, Holds s.particles.past H ∧ Rect H e.nActive ∧ (H.map (·.beta)).Pairwise (· ≤ ·) ∧
      ∀ s ∈ H, 0 ≤ s.beta ∧ s.beta ≤ 1 := by
  obtain ⟨bs, b1, b2, b3⟩ := h.betas
  obtain ⟨H, h1, h2, h3, h4⟩ := holds_of hc.1 hne h.rows (fun r hr => hr.2.2 hp) b1 (h.logz hp)
  refine ⟨H, by rw [h.past]; exact h1, h2, by rw [h3]; exact b2, fun s hs => b3 _ ?_⟩
  rw [← h3]
  exact List.mem_map_of_mem hs

theorem within_moves (hu : UserFns e ll lp bb hb) (hc : Configured e) (hp : ProperLike ll) {m M : ℝ} {s s' : Sampler d B Φ}
    {its : List (Iter d (List B))} (hi : Inv e ll lp bb hb s its) (hd : Draws s.scaler.low s.scaler.high rnd)
    (h0 : LoglWithin s.particles.past m M → EvidenceWithin s.particles.past m M) (hm : Moves e rnd s s') :
    LoglWithin s'.particles.past m M → EvidenceWithin s'.particles.past m M := by
  induction hm with
  | refl => exact h0
  | @tail s1 s2 hm0 hm ih =>
    obtain ⟨m1, k1, k2, k3⟩ := hi.moves hu hc hd hm0
    have hlen : s1.particles.past.beta.length = s1.particles.past.logz.length := by rw [k1.past]; simp [columns]
    cases hm with
    | init a hm =>
      have := runInit_past hm
      rw [this]; exact ih
    | endWarm _ => exact ih
    | evidence _ hm =>
      rw [finalEvidence_past hm]; exact ih
    | warm i _ _ hq =>
      intro hl
      obtain ⟨b0, hb', b, -, -, rfl⟩ := warmupStep_shape hq
      have hl' : LoglWithin s1.particles.past m M := fun l hl1 => hl l (by
        simp only [Particles.update, Cols.full, warmupIter, Option.toList_some, List.flatten_append, List.mem_append]
        exact .inl hl1)
      intro β z hz
      simp only [Particles.update, Cols.full, warmupIter, Option.toList_some] at hz
      rw [List.zip_append hlen] at hz
      rcases List.mem_append.1 hz with hz | hz
      · exact ih hl' _ _ hz
      · simp only [List.zip_cons_cons, List.zip_nil_right, List.mem_singleton, Prod.mk.injEq, fin_inj] at hz
        rw [hz.1, hz.2]; simp
    | smc fuel _ hq =>
      intro hl
      obtain ⟨β', z', ess, ls, g1, g2, g3, g4⟩ := smcStep_cols hq
      have hl' : LoglWithin s1.particles.past m M := fun l hl1 => hl l (by
        rw [g4, List.flatten_append]; exact List.mem_append_left _ hl1)
      have hw := ih hl'
      intro β z hz
      rw [g2, g3, List.zip_append hlen] at hz
      rcases List.mem_append.1 hz with hz | hz
      · exact hw _ _ hz
      simp only [List.zip_cons_cons, List.zip_nil_right, List.mem_singleton, Prod.mk.injEq] at hz
      obtain ⟨rfl, rfl⟩ := hz
      have hne : its ++ m1 ≠ [] := by
        intro hh
        have hps : s1.particles.past.beta = [] := by rw [k1.past, hh]; rfl
        simp only [chooseBeta, hps] at g1
        obtain ⟨_, q1, -⟩ := bind_ok g1
        exact absurd (getAt_mem q1) (by simp)
      obtain ⟨H, hH, hR, hO, h01⟩ := k1.ordered hc hp hne
      obtain ⟨st, hst⟩ : ∃ st, H.getLast? = some st := ⟨_, List.getLast?_eq_getLast_of_ne_nil hR.1⟩
      have hbl : s1.particles.past.beta.getLast? = some (fin st.beta) := by rw [hH.2.1, List.getLast?_map, hst]; rfl
      have hzl : s1.particles.past.logz.getLast? = some (fin st.logz) := by rw [hH.2.2, List.getLast?_map, hst]; rfl
      have hstm := List.mem_of_getLast? hst
      obtain ⟨β'', q, q1, -⟩ := C21_beta_step _ _ _ _ st.beta (h01 st hstm).2 hbl _ _ _ g1
      simp only [fin_inj] at q
      subst q
      have hle : ∀ s ∈ H, s.beta ≤ β := fun s hs =>
        (le_getLast hO (by rw [List.getLast?_map, hst]; rfl) _ (List.mem_map_of_mem hs)).trans q1
      rcases chooseBeta_cases g1 with ⟨c1, c2⟩ | ⟨lw, c2⟩
      · rw [getAt_neg_one hbl] at c1
        rw [getAt_neg_one hzl] at c2
        simp only [Except.ok.injEq, fin_inj] at c1 c2
        rw [← c1, ← c2]
        exact stages_logz hH hw st hstm
      · rw [computeLogwLogz_fin _ H _ hR hH] at c2
        simp only [Except.ok.injEq, Prod.mk.injEq, fin_inj] at c2
        rw [← c2.2]
        exact logz_within hR hle (stages_logz hH hw) (stages_logl hH hl')

/-- **C147.** In every state a sampler can reach: if all log-likelihoods stored so far are between `m` and `M`, the log-evidence
recorded with an iteration at inverse temperature `β` is between `β m` and `β M`. -/
theorem C147_recorded (hu : UserFns e ll lp bb hb) (hc : Configured e) (hp : ProperLike ll) {s : Sampler d B Φ} (hs : Session e hb s)
    {m M : ℝ} (hl : LoglWithin s.particles.past m M) : EvidenceWithin s.particles.past m M := by
  revert hl
  induction hs with
  | fresh hf => rw [hf.particles]; intro _ β z hz; simp [Particles.init] at hz
  | ran rnd fuel n a h hd hr ih =>
    obtain ⟨its, hi⟩ := h.inv hu hc (ll := ll) (lp := lp) (bb := bb)
    exact within_moves hu hc hp hi hd ih (Along.run fuel n a _ |>.to_end _ hr).1
  | loaded rnd fuel n a sv h hd hr ih =>
    obtain ⟨its, hi⟩ := h.inv hu hc (ll := ll) (lp := lp) (bb := bb)
    exact within_moves hu hc hp hi hd ih (Along.run fuel n a _ |>.from_start _ hr)

/-- **C147, the reported evidence.** After a run that estimates the evidence from its particles, the reported log-evidence is
between the smallest and the largest stored log-likelihood. -/
theorem C147_reported (hu : UserFns e ll lp bb hb) (hc : Configured e) (hp : ProperLike ll) {s s' : Sampler d B Φ} (hs : Session e hb s)
    (hd : Draws s.scaler.low s.scaler.high rnd) {fuel n : ℕ} {a : RunArgs} (hr : (run e rnd fuel n a s).2 = .ok s')
    (hno : ¬ (e.preconditioned = true ∧ 0 < a.nEvidence)) {m M : ℝ} (hl : LoglWithin s'.particles.past m M) :
    ∃ z, evidence s' = (some (fin z), none) ∧ m ≤ z ∧ z ≤ M := by
  obtain ⟨H', hH', hR', hev⟩ := C60_smc_value hu hp hc hs hd hr hno
  have hs' : Session e hb s' := .ran rnd fuel n a hs hd hr
  obtain ⟨its, hi⟩ := hs'.inv hu hc (ll := ll) (lp := lp) (bb := bb)
  have hne : its ≠ [] := by
    rintro rfl
    have := hH'.2.1
    rw [hi.past] at this
    exact hR'.1 (List.map_eq_nil_iff.1 this.symm)
  obtain ⟨H, hH, hR, hO, h01⟩ := hi.ordered hc hp hne
  have hz := logz_within hR (fun s hs => (h01 s hs).2) (stages_logz hH (C147_recorded hu hc hp hs' hl)) (stages_logl hH hl)
  obtain ⟨k1, k2⟩ := C60_which_evidence e rnd fuel n a s s' hr
  refine ⟨_, hev, ?_⟩
  have e1 := computeLogwLogz_fin _ H _ hR hH 1 true
  rw [computeLogwLogz_fin _ H' _ hR' hH' 1 true] at e1
  simp only [Except.ok.injEq, Prod.mk.injEq, fin_inj] at e1
  rw [e1.2]
  simpa using hz

/-- **C147, the effective size.** If the stored log-likelihoods are between `m` and `M`, then with `R = exp (M - m)` the effective
sample size of all the stored particles as a sample of the posterior is at least the fraction `4 R / (1 + R)²` of their number. -/
theorem C147_effective (hu : UserFns e ll lp bb hb) (hc : Configured e) (hp : ProperLike ll) {s : Sampler d B Φ} (hs : Session e hb s)
    (hne : s.particles.past.logl ≠ []) {m M : ℝ} (hl : LoglWithin s.particles.past m M) :
    ∃ n : ℝ, Poco.essAt s.particles.past .ess (fin 1) = .ok (fin n) ∧
      4 * Real.exp (M - m) / (1 + Real.exp (M - m)) ^ 2 * s.particles.past.logl.flatten.length ≤ n := by
  obtain ⟨its, hi⟩ := hs.inv hu hc (ll := ll) (lp := lp) (bb := bb)
  have hne' : its ≠ [] := by
    rintro rfl
    exact hne (by rw [hi.past]; rfl)
  obtain ⟨H, hH, hR, hO, h01⟩ := hi.ordered hc hp hne'
  refine ⟨_, essAt_fin _ H _ hR hH .ess 1, ?_⟩
  have hw := C147_recorded hu hc hp hs hl
  have hlen : s.particles.past.logl.flatten.length = (weights H 1).length := by
    rw [hH.1]
    simp [weights, allLogl, List.flatMap, List.length_flatten, Function.comp_def]
  have := ess_within (w := weights H 1) (by simpa [weights] using hR.allLogl_ne) (Real.exp_pos (1 * m)) (b := Real.exp (1 * M)) (by
    intro x hx
    obtain ⟨l, hl', rfl⟩ := List.mem_map.1 hx
    exact weight_within hR.1 (fun s hs => (h01 s hs).2) (stages_logz hH hw) (stages_logl hH hl l hl'))
  rw [hlen]
  refine le_trans (le_of_eq ?_) this
  congr 1
  rw [Real.exp_sub, one_mul, one_mul]
  have h1 := Real.exp_pos m
  have h2 := Real.exp_pos M
  field_simp

/-- **C147, going straight to the posterior.** If the stored log-likelihoods are between `m` and `M`, the fraction `4 R / (1 + R)²` of
the stored particles (`R = exp (M - m)`) is at least `n_effective`, and the effective sample size at the current temperature exceeds
`n_effective`, then the next iteration is at inverse temperature 1. -/
theorem C147_straight (hu : UserFns e ll lp bb hb) (hc : Configured e) (hp : ProperLike ll) {s s' : Sampler d B Φ} (hs : Session e hb s)
    (hmet : e.metric = .ess) {m M : ℝ} (hl : LoglWithin s.particles.past m M)
    (hbig : (s.nEffective : ℝ) ≤ 4 * Real.exp (M - m) / (1 + Real.exp (M - m)) ^ 2 * s.particles.past.logl.flatten.length)
    (hprev : ∀ b v, s.particles.past.beta.getLast? = some b → Poco.essAt s.particles.past .ess b = .ok (fin v) → (s.nEffective : ℝ) < v)
    {fuel : ℕ} (h : smcStep e rnd fuel s = .ok s') : s'.particles.past.beta = s.particles.past.beta ++ [fin 1] := by
  obtain ⟨β, z, ess, ls, g1, g2, -⟩ := smcStep_cols h
  rw [g2]
  suffices β = fin 1 by rw [this]
  obtain ⟨its, hi⟩ := hs.inv hu hc (ll := ll) (lp := lp) (bb := bb)
  have hne : its ≠ [] := by
    rintro rfl
    have hps : s.particles.past.beta = [] := by rw [hi.past]; rfl
    simp only [chooseBeta, hps] at g1
    obtain ⟨_, q1, -⟩ := bind_ok g1
    exact absurd (getAt_mem q1) (by simp)
  obtain ⟨H, hH, hR, hO, h01⟩ := hi.ordered hc hp hne
  obtain ⟨st, hst⟩ : ∃ st, H.getLast? = some st := ⟨_, List.getLast?_eq_getLast_of_ne_nil hR.1⟩
  have hbl : s.particles.past.beta.getLast? = some (fin st.beta) := by rw [hH.2.1, List.getLast?_map, hst]; rfl
  obtain ⟨v, v1, v2⟩ := C147_effective hu hc hp hs (by rw [hH.1]; simpa using hR.1) hl
  have hv := hprev _ _ hbl (essAt_fin _ H _ hR hH .ess st.beta)
  unfold chooseBeta at g1
  rw [hmet, getAt_neg_one hbl] at g1
  simp only [bind, Except.bind, essAt_fin _ H _ hR hH, ofNat, ge_iff_le, F.fin_le] at g1 v1
  simp only [Except.ok.injEq, fin_inj] at v1
  rw [if_neg (not_le.2 hv), if_pos (by rw [v1]; linarith)] at g1
  rw [computeLogwLogz_fin _ H _ hR hH] at g1
  simp only [pure, Except.pure, Except.ok.injEq, Prod.mk.injEq] at g1
  exact g1.1.symm

end

end Poco

namespace Poco.Demo
open F Spec

theorem proper114 : ProperLike step114 := fun x => by
  obtain ⟨l, h, -⟩ := bounded114 x
  exact .inr ⟨l, h⟩

theorem fresh114 : Fresh env114 false start := by
  constructor <;> try rfl
  · exact (fresh true).bounds
  · intro h; cases h

/-- The hypotheses of C147 are met, by a likelihood that is not constant: log-likelihoods between 0 and 1, a run that estimates the
evidence from its particles. -/
theorem within147 : ∃ fuel s', (run env114 rnd fuel (iterationBound 0 1 0.5 true 2 start.nEffective 100 + 1) ⟨100, 0, none⟩ start).2 = .ok s' ∧
    Session env114 false s' ∧ LoglWithin s'.particles.past 0 1 ∧ s'.particles.past.logl ≠ [] ∧
    ∃ z, evidence s' = (some (fin z), none) ∧ 0 ≤ z ∧ z ≤ 1 := by
  obtain ⟨fuel, h⟩ := C114_ends env114 step114 (fun _ => fin 0) (fun _ => [()]) false user114 (configured true) proper114 start
    (.fresh fresh114) 0 1 (fun x _ => .inr (bounded114 _)) 0.5 rfl
    (by norm_num) ⟨100, 0, none⟩ (by simp) rnd draws ⟨(reliable true).geo, (reliable true).flow, (reliable true).inv, (reliable true).chol,
      (reliable true).dim, (reliable true).freq, (reliable true).ratio, (reliable true).mult, (reliable true).syst⟩ (fun _ i hi => by
      refine ⟨pt fun _ => ((i * 2 : ℕ) : ℝ), ?_, ?_⟩
      · have hi' : i < 2 := by simpa [env, env114] using hi
        have : i = 0 ∨ i = 1 := by omega
        rcases this with rfl | rfl <;> simp [start, rnd, env, env114, List.range_succ]
      · obtain ⟨l, h, -⟩ := bounded114 (pt fun _ => ((i * 2 : ℕ) : ℝ))
        rw [h]; rfl) (fun h => by cases h)
  obtain ⟨s', hr⟩ := h fuel le_rfl
  have hS : Session env114 false s' := .ran rnd _ _ _ (.fresh fresh114) draws hr
  obtain ⟨its, hi⟩ := hS.inv user114 (configured true) (ll := step114) (lp := fun _ => fin 0) (bb := fun _ => [()])
  have hl : LoglWithin s'.particles.past 0 1 := by
    intro l hl
    rw [hi.past] at hl
    obtain ⟨q, h1, h2⟩ := List.mem_flatten.1 hl
    obtain ⟨it, h3, rfl⟩ := List.mem_map.1 h1
    obtain ⟨rows, -, r2, r3, -⟩ := hi.rows it h3
    rw [r2.logl] at h2
    obtain ⟨r, h4, rfl⟩ := List.mem_map.1 h2
    rw [(r3 r h4).1.2.2.1]
    obtain ⟨l, h, h5, h6⟩ := bounded114 r.x
    rw [h]
    simpa using ⟨h5, h6⟩
  obtain ⟨z, hz⟩ := C147_reported user114 (configured true) proper114 (.fresh fresh114) draws hr (by simp) hl
  obtain ⟨H, hH, hR, -⟩ := C60_smc_value user114 proper114 (configured true) (.fresh fresh114) draws hr (by simp)
  refine ⟨fuel, s', hr, hS, hl, ?_, z, hz⟩
  rw [hH.1]
  simpa using hR.1

/-- The hypotheses of `C147_straight` are met, by the state after the run of the flat example (and `second_run` goes on from there). -/
example : ∃ s' : Sampler 2 Unit Unit, (run (env true) rnd 0 1 (args 0) start).2 = .ok s' ∧ Session (env true) true s' ∧ (env true).metric = .ess ∧
    LoglWithin s'.particles.past 0 0 ∧
    (s'.nEffective : ℝ) ≤ 4 * Real.exp (0 - 0) / (1 + Real.exp (0 - 0)) ^ 2 * s'.particles.past.logl.flatten.length ∧
    ∀ b v, s'.particles.past.beta.getLast? = some b → Poco.essAt s'.particles.past .ess b = .ok (fin v) → (s'.nEffective : ℝ) < v := by
  obtain ⟨s', its, h1, h2, h3, h4, h5, h6, h7, h8, h9⟩ := first_run true 0
  have hS : Session (env true) true s' := .ran rnd 0 1 (args 0) (.fresh (fresh true)) draws h1
  have hl : LoglWithin s'.particles.past 0 0 := by
    intro l hl
    rw [h2.past] at hl
    obtain ⟨q, q1, q2⟩ := List.mem_flatten.1 hl
    obtain ⟨it, q3, rfl⟩ := List.mem_map.1 q1
    obtain ⟨rows, -, r2, r3, -⟩ := h2.rows it q3
    rw [r2.logl] at q2
    obtain ⟨r, q4, rfl⟩ := List.mem_map.1 q2
    rw [(r3 r q4).1.2.2.1]
    simp
  have hp : ProperLike (d := 2) fun _ => fin 0 := fun _ => .inr ⟨0, rfl⟩
  have hne : its ≠ [] := by rintro rfl; simp at h4
  obtain ⟨H, hH, hR, -⟩ := h2.ordered (configured true) hp hne
  have hlen : s'.particles.past.logl.flatten.length = 6 := by
    rw [hH.1]
    have : H.length = 3 := by
      have := congrArg List.length hH.2.1
      rw [h2.past] at this
      simpa [columns, h4] using this.symm
    have h := hR.length_allLogl
    rw [this] at h
    simpa [allLogl, List.flatMap, List.length_flatten, Function.comp_def, env] using h
  have hbig : (s'.nEffective : ℝ) ≤ 4 * Real.exp (0 - 0) / (1 + Real.exp (0 - 0)) ^ 2 * s'.particles.past.logl.flatten.length := by
    rw [h6, hlen]; norm_num
  refine ⟨s', h1, hS, rfl, hl, hbig, fun b v hb hv => ?_⟩
  have hb1 : b = fin 1 := by
    rw [h2.past] at hb
    change (its.map (·.beta)).getLast? = some b at hb
    rw [List.getLast?_map, Option.map_eq_some_iff] at hb
    obtain ⟨it, k1, k2⟩ := hb
    rw [← k2]; exact h7 it k1
  subst hb1
  obtain ⟨w, w1, w2⟩ := C147_effective (user true) (configured true) hp hS (by rw [hH.1]; simpa using hR.1) hl
  rw [hv] at w1
  simp only [Except.ok.injEq, fin_inj] at w1
  rw [hlen] at w2
  rw [h6, w1]
  norm_num at w2 ⊢
  linarith

end Poco.Demo
