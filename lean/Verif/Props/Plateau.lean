import Verif.Props.Kernel

/-! C106: when an MCMC phase ends. -/

namespace Poco.Spec
open F

/-- Step `j` set a record: its value exceeds every earlier one (values that are not numbers count for nothing). -/
def Record (v : ℕ → F) (j : ℕ) : Prop := ∀ k < j, v k = nan ∨ v k < v j

/-- At step `j` the last record is `c` steps old. -/
def LastRecord (v : ℕ → F) (j c : ℕ) : Prop := c ≤ j ∧ Record v (j - c) ∧ ∀ i, j - c < i → i ≤ j → ¬ Record v i

/-- The average over the walkers of the logarithm of likelihood times prior; for the random walks it includes the Jacobian term of the transformation. -/
noncomputable def progress {d : ℕ} {B : Type} (k : Kern) (ws : List (Walker d B)) : F :=
  match k with
  | .ppcn => mean (ws.map fun w => w.logl + w.logp)
  | .pcn => mean (ws.map fun w => w.logl + w.logp)
  | .prwm => mean (ws.map fun w => w.logl + w.logp + w.logdetj)
  | .rwm => mean (ws.map fun w => w.logl + w.logp + w.logdetj)

/-- The number of steps without a record that the kernel tolerates, at proposal scale `s`: `n_steps` times the square of the optimal scale over `s`; the
preconditioned random walk does not tolerate more than `n_steps`. -/
noncomputable def tolerance (k : Kern) (d nSteps : ℕ) (s : ℝ) : ℝ :=
  match k with
  | .prwm => nSteps * (min 1 (2.38 / Real.sqrt d / s)) ^ 2
  | _ => nSteps * (2.38 / Real.sqrt d / s) ^ 2

end Poco.Spec

namespace Poco
open F Spec

variable {d : ℕ} {B : Type}

theorem F.le_lt_trans {a b c : F} (h1 : a ≤ b) (h2 : b < c) : a < c := by
  cases a <;> cases b <;> cases c <;> first | trivial | exact h1.elim | exact h2.elim | exact lt_of_le_of_lt (α := ℝ) h1 h2

theorem F.lt_not_nan {a b : F} (h : a < b) : b ≠ nan := by
  rintro rfl
  cases a <;> exact h.elim

theorem F.not_lt_le {a b : F} (ha : a ≠ nan) (hb : b ≠ nan) (h : ¬ a < b) : b ≤ a := by
  cases a <;> cases b <;> first | trivial | exact absurd rfl ha | exact absurd rfl hb | exact (h trivial).elim | exact le_of_not_gt (α := ℝ) h

theorem F.le_refl' {a : F} (ha : a ≠ nan) : a ≤ a := by
  cases a <;> first | trivial | exact absurd rfl ha | exact le_refl (α := ℝ) _

theorem F.lt_le {a b : F} (h : a < b) : a ≤ b := by
  cases a <;> cases b <;> first | trivial | exact h.elim | exact le_of_lt (α := ℝ) h

/-- What a step does to the variables of the plateau test. -/
theorem mcmcStep_plateau {e : McmcEnv d B} {fuel : ℕ} {rnd : ℕ → Draw d} {i : ℕ} {st st' : McmcState d B}
    (h : mcmcStep e fuel rnd i st = .ok st') :
    (st.best < monitor e.kernel st'.walkers ∧ st'.best = monitor e.kernel st'.walkers ∧ st'.cnt = 0 ∧ st'.stop = false) ∨
    (¬ st.best < monitor e.kernel st'.walkers ∧ st'.best = st.best ∧ st'.cnt = st.cnt + 1 ∧
      (st'.stop = true ↔ patienceLimit e.kernel d e.nSteps st'.sigma ≤ F.ofNat st'.cnt)) := by
  unfold mcmcStep at h
  obtain ⟨cands, h1, h⟩ := bind_ok h
  obtain ⟨⟨props, ev, n⟩, h2, h⟩ := bind_ok h
  simp only at h
  split at h <;> rename_i hv <;> simp only [pure, Except.pure, Except.ok.injEq] at h <;> subst h
  · exact .inl ⟨hv, rfl, rfl, rfl⟩
  · exact .inr ⟨hv, rfl, rfl, by simp⟩

/-- The variables of the plateau test along the successive states. -/
theorem plateau_inv {e : McmcEnv d B} {fuel : ℕ} {rnd : ℕ → ℕ → Draw d} {ws : List (Walker d B)}
    {st : ℕ → McmcState d B} {n : ℕ} (h0 : st 0 = mcmcInit e ws)
    (hstep : ∀ i < n, mcmcStep e fuel (rnd (i + 1)) (i + 1) (st i) = .ok (st (i + 1)))
    (hv : monitor e.kernel (st 0).walkers ≠ nan) :
    ∀ j ≤ n, LastRecord (fun i => monitor e.kernel (st i).walkers) j (st j).cnt ∧ (st j).best = monitor e.kernel (st (j - (st j).cnt)).walkers ∧
      (st j).best ≠ nan ∧ ∀ k ≤ j, monitor e.kernel (st k).walkers = nan ∨ monitor e.kernel (st k).walkers ≤ (st j).best := by
  intro j
  induction j with
  | zero =>
    intro _
    have hc : (st 0).cnt = 0 := by rw [h0]; rfl
    have hb : (st 0).best = monitor e.kernel (st 0).walkers := by rw [h0]; rfl
    refine ⟨⟨by omega, fun k hk => absurd hk (by omega), fun i h1 h2 => by omega⟩, by simpa using hb, hb ▸ hv, fun k hk => ?_⟩
    obtain rfl : k = 0 := by omega
    exact .inr (by rw [hb]; exact F.le_refl' hv)
  | succ j ih =>
    intro hj
    obtain ⟨⟨l1, l2, l3⟩, l4, l5, l6⟩ := ih (by omega)
    rcases mcmcStep_plateau (hstep j (by omega)) with ⟨g1, g2, g3, -⟩ | ⟨g1, g2, g3, -⟩
    · rw [g3, g2]
      refine ⟨⟨by omega, fun k hk => ?_, fun i h1 h2 => by omega⟩, rfl, F.lt_not_nan g1, fun k hk => ?_⟩
      · rcases l6 k (by omega) with h | h
        · exact .inl h
        · exact .inr (F.le_lt_trans h g1)
      · rcases Nat.lt_or_ge k (j + 1) with hk' | hk'
        · rcases l6 k (by omega) with h | h
          · exact .inl h
          · exact .inr (F.lt_le (F.le_lt_trans h g1))
        · obtain rfl : k = j + 1 := by omega
          exact .inr (F.le_refl' (F.lt_not_nan g1))
    · rw [g3, g2]
      have hsub : j + 1 - ((st j).cnt + 1) = j - (st j).cnt := by omega
      refine ⟨⟨by omega, by rw [hsub]; exact l2, fun i h1 h2 => ?_⟩, by rw [hsub]; exact l4, l5, fun k hk => ?_⟩
      · rw [hsub] at h1
        rcases Nat.lt_or_ge i (j + 1) with hi | hi
        · exact l3 i h1 (by omega)
        · obtain rfl : i = j + 1 := by omega
          intro hrec
          rcases hrec (j - (st j).cnt) (by omega) with h | h
          · exact l5 (l4.trans h)
          · change monitor e.kernel (st (j - (st j).cnt)).walkers < _ at h
            rw [← l4] at h
            exact g1 h
      · rcases Nat.lt_or_ge k (j + 1) with hk' | hk'
        · exact l6 k (by omega)
        · obtain rfl : k = j + 1 := by omega
          by_cases hn : monitor e.kernel (st (j + 1)).walkers = nan
          · exact .inl hn
          · exact .inr (F.not_lt_le l5 hn g1)

/-- The loop runs until the plateau test or the limit on the steps ends it. -/
theorem mcmcLoop_ends {e : McmcEnv d B} {fuel : ℕ} {rnd : ℕ → ℕ → Draw d} {i : ℕ} {s s' : McmcState d B} {n : ℕ}
    (h : mcmcLoop e fuel rnd i s = .ok (s', n)) (st : ℕ → McmcState d B) (h0 : st i = s)
    (hstep : ∀ j, i ≤ j → j < n → mcmcStep e fuel (rnd (j + 1)) (j + 1) (st j) = .ok (st (j + 1))) :
    i < n ∧ st n = s' ∧ ∀ j, i < j → j ≤ n → (j = n ↔ (st j).stop = true ∨ e.nMax ≤ j) := by
  fun_induction mcmcLoop e fuel rnd i s with
  | case1 i s x hs => simp at h
  | case2 i s s1 hs hstop =>
    simp only [Except.ok.injEq, Prod.mk.injEq] at h
    obtain ⟨rfl, rfl⟩ := h
    have := hstep i le_rfl (by omega)
    rw [h0, hs] at this
    simp only [Except.ok.injEq] at this
    refine ⟨by omega, this.symm, fun j h1 h2 => ?_⟩
    obtain rfl : j = i + 1 := by omega
    rw [← this]
    simp [hstop]
  | case3 i s s1 hs hstop hn =>
    simp only [Except.ok.injEq, Prod.mk.injEq] at h
    obtain ⟨rfl, rfl⟩ := h
    have := hstep i le_rfl (by omega)
    rw [h0, hs] at this
    simp only [Except.ok.injEq] at this
    refine ⟨by omega, this.symm, fun j h1 h2 => ?_⟩
    obtain rfl : j = i + 1 := by omega
    simp [hn]
  | case4 i s s1 hs hstop hn ih =>
    have hin : i < n := by
      by_contra hc
      -- the loop makes at least one more step
      have : ∀ {i : ℕ} {s s' : McmcState d B}, mcmcLoop e fuel rnd i s = .ok (s', n) → i < n := by
        intro i s s' h
        fun_induction mcmcLoop e fuel rnd i s with
        | case1 i s x hs => simp at h
        | case2 i s s1 hs hstop => simp only [Except.ok.injEq, Prod.mk.injEq] at h; omega
        | case3 i s s1 hs hstop hn => simp only [Except.ok.injEq, Prod.mk.injEq] at h; omega
        | case4 i s s1 hs hstop hn ih => have := ih h; omega
      have := this h
      omega
    have h1 := hstep i le_rfl hin
    rw [h0, hs] at h1
    simp only [Except.ok.injEq] at h1
    obtain ⟨g1, g2, g3⟩ := ih h h1.symm (fun j hj => hstep j (by omega))
    refine ⟨hin, g2, fun j k1 k2 => ?_⟩
    rcases Nat.lt_or_ge (i + 1) j with hj | hj
    · exact g3 j hj k2
    · obtain rfl : j = i + 1 := by omega
      rw [← h1]
      constructor
      · intro hc; omega
      · rintro (hc | hc)
        · exact absurd hc hstop
        · exact absurd hc hn

/-- The successive states of a call that returns. -/
theorem mcmc_states {e : McmcEnv d B} {fuel : ℕ} {rnd : ℕ → ℕ → Draw d} {ws : List (Walker d B)} {r : McmcResult d B}
    (h : mcmc e fuel rnd ws = .ok r) : ∃ st : ℕ → McmcState d B, st 0 = mcmcInit e ws ∧
      ∀ i < r.steps, mcmcStep e fuel (rnd (i + 1)) (i + 1) (st i) = .ok (st (i + 1)) := by
  have key : ∀ {i : ℕ} {s s' : McmcState d B} {n : ℕ}, mcmcLoop e fuel rnd i s = .ok (s', n) → ∃ st : ℕ → McmcState d B, st i = s ∧
      ∀ j, i ≤ j → j < n → mcmcStep e fuel (rnd (j + 1)) (j + 1) (st j) = .ok (st (j + 1)) := by
    intro i s s' n h
    fun_induction mcmcLoop e fuel rnd i s with
    | case1 i s x hs => simp at h
    | case2 i s s1 hs hstop =>
      simp only [Except.ok.injEq, Prod.mk.injEq] at h
      refine ⟨fun j => if j = i then s else s1, by simp, fun j h1 h2 => ?_⟩
      obtain rfl : j = i := by omega
      simpa using hs
    | case3 i s s1 hs hstop hn =>
      simp only [Except.ok.injEq, Prod.mk.injEq] at h
      refine ⟨fun j => if j = i then s else s1, by simp, fun j h1 h2 => ?_⟩
      obtain rfl : j = i := by omega
      simpa using hs
    | case4 i s s1 hs hstop hn ih =>
      obtain ⟨st, g1, g2⟩ := ih h
      refine ⟨fun j => if j = i then s else st j, by simp, fun j h1 h2 => ?_⟩
      rcases Nat.eq_or_lt_of_le h1 with rfl | h1
      · simpa [g1] using hs
      · simp only []
        rw [if_neg (by omega), if_neg (by omega)]
        exact g2 j h1 h2
  unfold mcmc at h
  cases hl : mcmcLoop e fuel rnd 0 (mcmcInit e ws) with
  | error x => rw [hl] at h; cases h
  | ok q =>
    obtain ⟨s', n⟩ := q
    rw [hl] at h
    simp only [Except.ok.injEq] at h
    subst h
    obtain ⟨st, g1, g2⟩ := key hl
    exact ⟨st, g1, fun i hi => g2 i (Nat.zero_le _) hi⟩

theorem monitor_progress (k : Kern) (ws : List (Walker d B)) : monitor k ws = progress k ws := by
  cases k <;> simp [monitor, progress, Kern.isPcn]

theorem patience_real (k : Kern) (n : ℕ) {s : ℝ} (hs : s ≠ 0) (hd : 0 < d) : patienceLimit k d n (fin s) = fin (tolerance k d n s) := by
  have hq : Real.sqrt d ≠ 0 := (Real.sqrt_pos.mpr (by exact_mod_cast hd)).ne'
  cases k <;> simp only [patienceLimit, tolerance, F.sq, F.ofNat, fin_div _ _ hq, fin_div _ _ hs, minimum_fin, fin_mul, _root_.sq]

/-- **C106.** A kernel call ends at the first step at which `n_max_steps` steps are done, or the average log-posterior of the walkers has set no record for at
least the tolerated number of steps. `st 0, st 1, …` are the successive states of the call. -/
theorem C106_stop {e : McmcEnv d B} {fuel : ℕ} {rnd : ℕ → ℕ → Draw d} {ws : List (Walker d B)} {r : McmcResult d B}
    (h : mcmc e fuel rnd ws = .ok r) (hd : 0 < d) {st : ℕ → McmcState d B} (h0 : st 0 = mcmcInit e ws)
    (hstep : ∀ i < r.steps, mcmcStep e fuel (rnd (i + 1)) (i + 1) (st i) = .ok (st (i + 1)))
    (hv : progress e.kernel (st 0).walkers ≠ nan) {s : ℕ → ℝ} (hs : ∀ j ≤ r.steps, (st j).sigma = fin (s j) ∧ s j ≠ 0) :
    r.walkers = (st r.steps).walkers ∧ ∀ j, 1 ≤ j → j ≤ r.steps → (j = r.steps ↔
      e.nMax ≤ j ∨ ∃ c, LastRecord (fun i => progress e.kernel (st i).walkers) j c ∧ 1 ≤ c ∧ tolerance e.kernel d e.nSteps (s j) ≤ c) := by
  have hrun := h
  unfold mcmc at h
  cases hl : mcmcLoop e fuel rnd 0 (mcmcInit e ws) with
  | error x => rw [hl] at h; cases h
  | ok q =>
    obtain ⟨s', n⟩ := q
    rw [hl] at h
    simp only [Except.ok.injEq] at h
    have hn : r.steps = n := by rw [← h]
    rw [hn] at hstep hs ⊢
    obtain ⟨g1, g2, g3⟩ := mcmcLoop_ends hl st h0 (fun j _ hj => hstep j hj)
    refine ⟨by rw [g2, ← h], fun j j1 j2 => (g3 j j1 j2).trans ?_⟩
    have hinv := plateau_inv h0 hstep (by rwa [monitor_progress])
    obtain ⟨i, rfl⟩ : ∃ i, j = i + 1 := ⟨j - 1, by omega⟩
    obtain ⟨l1, -⟩ := hinv (i + 1) j2
    simp only [monitor_progress] at l1
    have uniq : ∀ c, LastRecord (fun i => progress e.kernel (st i).walkers) (i + 1) c → c = (st (i + 1)).cnt := by
      intro c hc
      rcases lt_trichotomy c (st (i + 1)).cnt with hlt | heq | hgt
      · exact absurd hc.2.1 (l1.2.2 _ (by have := l1.1; omega) (by omega))
      · exact heq
      · exact absurd l1.2.1 (hc.2.2 _ (by have := hc.1; omega) (by omega))
    rw [or_comm]
    refine or_congr Iff.rfl ?_
    obtain ⟨hσ, hσ0⟩ := hs (i + 1) j2
    rcases mcmcStep_plateau (hstep i (by omega)) with ⟨-, -, k3, k4⟩ | ⟨-, -, k3, k4⟩
    · rw [k4]
      constructor
      · intro hc; cases hc
      · rintro ⟨c, hc, h1, -⟩
        have := uniq c hc
        omega
    · rw [k4, hσ, patience_real _ _ hσ0 hd]
      simp only [F.ofNat, fin_le]
      constructor
      · intro hle
        exact ⟨_, l1, by omega, hle⟩
      · rintro ⟨c, hc, -, hle⟩
        rw [uniq c hc] at hle
        exact hle

theorem mean_replicate_zero {n : ℕ} (hn : n ≠ 0) : mean (List.replicate n (fin 0)) = fin 0 := by
  have := mean_fin (List.replicate n (0 : ℝ)) (by simpa using hn)
  simpa using this

theorem step_reject_sigma {e : McmcEnv d B} {b : ℝ} (hβ : e.beta = fin b) (hb : 0 ≤ b) {lp : Pt d → F} {bb : Pt d → B}
    (hrow : RowWise e (fun _ => ninf) lp bb) {fuel : ℕ} {rnd : ℕ → Draw d}
    {i : ℕ} {st st' : McmcState d B} (h : mcmcStep e fuel rnd i st = .ok st') (hne : st.walkers ≠ []) :
    st'.accept = fin 0 ∧ st'.sigma = sigmaNext e.kernel d i st.sigma st'.accept := by
  obtain ⟨cands, props, ev, n, h1, h2, h3, h4, h5, -⟩ := mcmcStep_ok h
  refine ⟨?_, h5⟩
  have hlen := (mapM_eq_ok h1).1
  rw [evaluate_rowwise e _ lp bb hrow] at h2
  simp only [Except.ok.injEq, Prod.mk.injEq] at h2
  obtain ⟨rfl, -, -⟩ := h2
  rw [h4, ← mean_replicate_zero (n := st.walkers.length) (by simpa using hne)]
  congr 1
  rw [List.eq_replicate_iff]
  refine ⟨by simp at hlen ⊢; omega, fun a ha => ?_⟩
  simp only [List.mem_map] at ha
  obtain ⟨⟨q1, q2⟩, hq, rfl⟩ := ha
  have hq2 := (List.of_mem_zip hq).2
  simp only [List.mem_map] at hq2
  obtain ⟨c, -, rfl⟩ := hq2
  refine alpha_bad e b hβ hb _ _ _ ?_
  right
  simp

/-- The hypotheses are met: a random walk none of whose proposals is possible. The average sets no record at the first step, and the call ends there. -/
example (rnd : ℕ → ℕ → Draw 2) (hr : Uniform rnd) :
    let e := exampleEnv .rwm (fun _ => ninf) 0.5
    let ws := [exampleWalker (fun _ => fin 0) 1, exampleWalker (fun _ => fin 0) 3]
    ∃ (r : McmcResult 2 Unit) (st : ℕ → McmcState 2 Unit) (s : ℕ → ℝ), mcmc e 0 rnd ws = .ok r ∧ st 0 = mcmcInit e ws ∧
      (∀ i < r.steps, mcmcStep e 0 (rnd (i + 1)) (i + 1) (st i) = .ok (st (i + 1))) ∧ progress e.kernel (st 0).walkers ≠ nan ∧
      (∀ j ≤ r.steps, (st j).sigma = fin (s j) ∧ s j ≠ 0) ∧ LastRecord (fun i => progress e.kernel (st i).walkers) 1 1 := by
  intro e ws
  obtain ⟨r, h1, h2, h3⟩ := C28_terminates e (exampleEnv_bounds _ _ _) (by simp [e, exampleEnv]) _ _ _ (exampleEnv_rowwise _ _ _) 0 rnd ws
  obtain ⟨st, g1, g2⟩ := mcmc_states h1
  have hsteps : r.steps = 1 := by
    have : max 1 e.nMax = 1 := by simp [e, exampleEnv]
    omega
  have hs1 := g2 0 (by omega)
  have hw : (st 1).walkers = (st 0).walkers := by
    refine step_reject (b := 1) rfl zero_le_one (exampleEnv_rowwise _ _ _) (fun k => ?_) hs1
    obtain ⟨q, q1, q2, -⟩ := hr 1 k
    exact ⟨q, q1, q2⟩
  have hp : progress e.kernel (st 0).walkers = fin 0 := by
    rw [g1]
    have := mean_fin [(0 : ℝ), 0] (by simp)
    simpa [progress, e, ws, exampleEnv, exampleWalker, mcmcInit, Kern.hasFlow] using this
  refine ⟨r, st, fun j => if j = 0 then 0.5 else 0.383, h1, g1, g2, by rw [hp]; exact (fun h => by cases h), fun j hj => ?_, by omega, ?_, ?_⟩
  · obtain rfl | rfl : j = 0 ∨ j = 1 := by omega
    · rw [g1]
      constructor
      · simp [mcmcInit, e, exampleEnv, Kern.isPcn]
      · norm_num
    · obtain ⟨hacc, c5⟩ := step_reject_sigma (b := 1) rfl zero_le_one (exampleEnv_rowwise _ _ _) hs1 (by rw [g1]; simp [mcmcInit, ws])
      rw [c5, hacc]
      have hσ : (st 0).sigma = fin 0.5 := by rw [g1]; simp [mcmcInit, e, exampleEnv, Kern.isPcn]
      rw [hσ]
      constructor
      · simp only [sigmaNext, e, exampleEnv, fin_sub, fin_mul, fin_add, F.abs_fin, F.fin.injEq]
        norm_num
      · norm_num
  · intro k hk; omega
  · intro i i1 i2 hrec
    obtain rfl : i = 1 := by omega
    rcases hrec 0 (by omega) with h | h
    · simp only [hp] at h; cases h
    · simp only [hw, hp, fin_lt, lt_irrefl] at h

end Poco
