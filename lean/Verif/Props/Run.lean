import Verif.Lemmas.Inv

/-! Whole runs: properties C13, C14, C21 (run level), C24, C29, C60, C74. -/

namespace Poco
open F Spec

variable {d : ℕ} {B Φ : Type}

section
variable {e : SamplerEnv d B Φ} {ll lp : Pt d → F} {bb : Pt d → List B} {hb : Bool} {s s' : Sampler d B Φ} {rnd : Rnd d Φ}
  {its : List (Iter d (List B))}

/-! ### C13 -/

/-- A rectangular store: `T` entries in each of the fifteen columns, `n` entries in each stored per-particle array. -/
structure Spec.Rectangular (T n : ℕ) (p : Cols d B List) : Prop where
  lengths : p.u.length = T ∧ p.x.length = T ∧ p.logdetj.length = T ∧ p.logl.length = T ∧ p.logp.length = T ∧
    p.logw.length = T ∧ p.blobs.length = T ∧ p.iter.length = T ∧ p.logz.length = T ∧ p.calls.length = T ∧
    p.steps.length = T ∧ p.efficiency.length = T ∧ p.ess.length = T ∧ p.accept.length = T ∧ p.beta.length = T
  u : ∀ a ∈ p.u, a.length = n
  x : ∀ a ∈ p.x, a.length = n
  logdetj : ∀ a ∈ p.logdetj, a.length = n
  logl : ∀ a ∈ p.logl, a.length = n
  logp : ∀ a ∈ p.logp, a.length = n
  logw : ∀ a ∈ p.logw, a.length = n
  blobs : ∀ a ∈ p.blobs, ∀ b, a = some b → b.length = n

theorem rectangular_of {n : ℕ} {P : Row d B → Prop} {its : List (Iter d B)} (h : ∀ it ∈ its, HasRows n hb P it) :
    Rectangular its.length n (columns its) := by
  have key : ∀ it ∈ its, List.length it.u = n ∧ List.length it.x = n ∧ List.length it.logdetj = n ∧ List.length it.logl = n ∧
      List.length it.logp = n ∧ List.length it.logw = n ∧ ∀ b, it.blobs = some b → b.length = n := by
    intro it hit
    obtain ⟨rows, r1, r2, -, r4⟩ := h it hit
    refine ⟨?_, ?_, ?_, ?_, ?_, r4, ?_⟩
    · simp only [r2.u]; simpa using r1
    · simp only [r2.x]; simpa using r1
    · simp only [r2.logdetj]; simpa using r1
    · simp only [r2.logl]; simpa using r1
    · simp only [r2.logp]; simpa using r1
    · intro b hbl
      rw [r2.blobs] at hbl
      cases hb with
      | false => simp at hbl
      | true => simp at hbl; subst hbl; simpa using r1
  refine ⟨by simp [columns], ?_, ?_, ?_, ?_, ?_, ?_, ?_⟩ <;>
  · simp only [columns, List.mem_map]
    rintro a ⟨it, hit, rfl⟩
    have := key it hit
    tauto

/-- C13: in every state a sampler can reach (any number of runs, saves and resumes, any draws), the store is rectangular,
with one entry per iteration made. -/
theorem C13_rectangular (hu : UserFns e ll lp bb hb) (hc : Configured e) (h : Session e hb s) :
    ∃ T, Rectangular T e.nActive s.particles.past := by
  obtain ⟨its, hi⟩ := h.inv hu hc
  exact ⟨its.length, by rw [hi.past]; exact rectangular_of hi.rows⟩

/-! ### C14 -/

/-- `q` continues `p`: every column of `p` is an initial part of the same column of `q`. -/
structure Spec.Extends (p q : Cols d B List) : Prop where
  u : p.u <+: q.u
  x : p.x <+: q.x
  logdetj : p.logdetj <+: q.logdetj
  logl : p.logl <+: q.logl
  logp : p.logp <+: q.logp
  logw : p.logw <+: q.logw
  blobs : p.blobs <+: q.blobs
  iter : p.iter <+: q.iter
  logz : p.logz <+: q.logz
  calls : p.calls <+: q.calls
  steps : p.steps <+: q.steps
  efficiency : p.efficiency <+: q.efficiency
  ess : p.ess <+: q.ess
  accept : p.accept <+: q.accept
  beta : p.beta <+: q.beta

theorem Spec.Extends.refl (p : Cols d B List) : Extends p p := by
  constructor <;> exact List.prefix_rfl

theorem Spec.Extends.trans {p q r : Cols d B List} (h : Extends p q) (k : Extends q r) : Extends p r := by
  constructor
  · exact h.u.trans k.u
  · exact h.x.trans k.x
  · exact h.logdetj.trans k.logdetj
  · exact h.logl.trans k.logl
  · exact h.logp.trans k.logp
  · exact h.logw.trans k.logw
  · exact h.blobs.trans k.blobs
  · exact h.iter.trans k.iter
  · exact h.logz.trans k.logz
  · exact h.calls.trans k.calls
  · exact h.steps.trans k.steps
  · exact h.efficiency.trans k.efficiency
  · exact h.ess.trans k.ess
  · exact h.accept.trans k.accept
  · exact h.beta.trans k.beta

theorem update_extends (p : Particles d B) (data : Cols d B Option) : Extends p.past (p.update data).past := by
  constructor <;> exact List.prefix_append _ _

theorem Move.extends (h : Move e rnd s s') : Extends s.particles.past s'.particles.past := by
  cases h with
  | init a h =>
    rcases runInit_ok h with ⟨-, rfl⟩ | ⟨-, sc, -, rfl⟩ <;> exact .refl _
  | warm i hw hi h =>
    unfold warmupStep at h
    obtain ⟨⟨b0, hbl⟩, h1, h⟩ := bind_ok h
    obtain ⟨b, h2, h⟩ := bind_ok h
    simp only [pure, Except.pure, Except.ok.injEq] at h
    subst h
    exact update_extends _ _
  | endWarm hw => exact .refl _
  | smc fuel hw h =>
    obtain ⟨c, s1, c1, s2, c2, s3, c3, h0, h1, h2, h3, h4, rfl⟩ := smcStep_ok h
    obtain ⟨n, rfl⟩ := reweight_keep h1
    obtain ⟨ws, k, r, -, -, -, h5⟩ := mutate_ok h4
    simp only [writeBack, Prod.mk.injEq] at h5
    obtain ⟨rfl, rfl⟩ := h5
    rcases train_ok h2 with ⟨-, flow, g, rfl⟩ | ⟨-, g, rfl⟩ <;> exact update_extends _ _
  | evidence hw h =>
    rcases finalEvidence_ok h with ⟨-, -, h⟩ | ⟨-, lw, z, -, rfl⟩
    · obtain ⟨inv, ll', bl, hbl, h1, h2, rfl⟩ := computeEvidence_ok h
      exact .refl _
    · exact .refl _

/-- The run arguments stay put during the loops. -/
theorem run_args {fuel n : ℕ} {a : RunArgs} {s s1 s2 s3 : Sampler d B Φ} (h1 : runInit e rnd a s = .ok s1)
    (h2 : (runWarmup e rnd a s.t s1).2 = .ok s2) (h3 : (smcLoop e rnd fuel a.saveEvery s.t n s2).2 = .ok s3) :
    s3.nTotal = a.nTotal ∧ s3.nEvidence = a.nEvidence := by
  have p1 : s1.nTotal = a.nTotal ∧ s1.nEvidence = a.nEvidence := by
    rcases runInit_ok h1 with ⟨-, rfl⟩ | ⟨-, sc, -, rfl⟩ <;> exact ⟨rfl, rfl⟩
  have p2 := (TraceP.runWarmup (e := e) (rnd := rnd) (P := fun s => s.nTotal = a.nTotal ∧ s.nEvidence = a.nEvidence)
    (fun s s' i _ hs hw => by obtain ⟨b0, hb, b, -, -, rfl⟩ := warmupStep_shape hw; exact hs) (fun s hs => hs) a s.t s1 p1).2 s2 h2
  exact (TraceP.smcLoop (e := e) (rnd := rnd) (P := fun s => s.nTotal = a.nTotal ∧ s.nEvidence = a.nEvidence)
    (fun s s' hs hw => by obtain ⟨c, c3, r, nEff, fl, fu, ug, tg, -, -, -, -, rfl⟩ := smcStep_shape hw; exact hs) _ _ _ s2 p2).2 s3 h3

theorem Moves.extends (h : Moves e rnd s s') : Extends s.particles.past s'.particles.past := by
  induction h with
  | refl => exact .refl _
  | tail _ hm ih => exact ih.trans hm.extends

/-- C14: along a run (whatever the sampler did before, whatever the user's functions and the draws), nothing recorded at
the start of the run or in a state file is ever changed or removed: each column at any earlier point is an initial part of
the same column at any later point. -/
theorem C14_append_only (e : SamplerEnv d B Φ) (rnd : Rnd d Φ) (fuel n : ℕ) (a : RunArgs) (s : Sampler d B Φ) :
    (∀ sv ∈ (run e rnd fuel n a s).1, Extends s.particles.past sv.state.particles.past) ∧
    (run e rnd fuel n a s).1.Pairwise (fun p q => Extends p.state.particles.past q.state.particles.past) ∧
    ∀ s', (run e rnd fuel n a s).2 = .ok s' → Extends s.particles.past s'.particles.past ∧
      ∀ sv ∈ (run e rnd fuel n a s).1, Extends sv.state.particles.past s'.particles.past := by
  have h := Along.run (e := e) (rnd := rnd) fuel n a s
  exact ⟨fun sv hsv => (h.from_start sv hsv).extends, h.ordered.imp fun hm => Moves.extends hm,
    fun s' hs' => ⟨((h.to_end s' hs').1).extends, fun sv hsv => ((h.to_end s' hs').2 sv hsv).extends⟩⟩

/-! ### C21, whole sessions -/

/-- C21 for whole sessions: the recorded temperatures are numbers in [0, 1] and never decrease. -/
theorem C21_session (hu : UserFns e ll lp bb hb) (hc : Configured e) (h : Session e hb s) :
    ∃ bs : List ℝ, s.particles.past.beta = bs.map fin ∧ bs.Pairwise (· ≤ ·) ∧ ∀ b ∈ bs, 0 ≤ b ∧ b ≤ 1 := by
  obtain ⟨its, hi⟩ := h.inv hu hc
  rw [hi.past]
  exact hi.betas

/-! ### C29 and C74 -/

/-- C29: in every state a sampler can reach, every stored iteration consists of `n_active` particles, each stored with its
own values. -/
theorem C29_run (hu : UserFns e ll lp bb hb) (hc : Configured e) (h : Session e hb s) :
    ∃ its : List (Iter d (List B)), s.particles.past = columns its ∧ ∀ it ∈ its,
      ∃ rows, rows.length = e.nActive ∧ IsRows hb it rows ∧ ∀ r ∈ rows, r.Belongs s.scaler ll lp bb hb := by
  obtain ⟨its, hi⟩ := h.inv hu hc
  refine ⟨its, hi.past, fun it hit => ?_⟩
  obtain ⟨rows, r1, r2, r3, -⟩ := hi.rows it hit
  exact ⟨rows, r1, r2, fun r hr => (r3 r hr).1⟩

/-- C74: every stored particle has finite coordinates, strictly inside every bound of the prior. -/
theorem C74_inside (hu : UserFns e ll lp bb hb) (hc : Configured e) (h : Session e hb s) :
    ∀ xs ∈ s.particles.past.x, ∀ x ∈ xs, ∃ y : Fin d → ℝ, x = pt y ∧ StrictlyInside s.scaler.low s.scaler.high y := by
  obtain ⟨its, hi⟩ := h.inv hu hc
  intro xs hxs x hx
  rw [hi.past] at hxs
  obtain ⟨it, hit, rfl⟩ := List.mem_map.mp hxs
  obtain ⟨rows, r1, r2, r3, -⟩ := hi.rows it hit
  rw [r2.x] at hx
  obtain ⟨r, hr, rfl⟩ := List.mem_map.mp hx
  have hok : s.scaler.Ok := by
    cases hps : s.priorSamples with
    | none => rw [hi.noPrior hps] at hit; simp at hit
    | some ps => exact (hi.prior ps hps).1
  obtain ⟨⟨h1, -⟩, ⟨u, hu'⟩, -⟩ := r3 r hr
  rw [hu'] at h1
  obtain ⟨y, ld, h2, h3⟩ := C36_inverse_inside s.scaler hok u
  rw [h2] at h1
  simp only [Except.ok.injEq, Prod.mk.injEq] at h1
  exact ⟨y, h1.1.symm, h3⟩

/-! ### C24 -/

/-- C24: when `run` returns, for a likelihood whose values are numbers or `-inf`: the last temperature is within `1e-4` of 1
and the effective size (ESS or USS, as chosen) of all stored particles at temperature 1 is at least `n_total`. -/
theorem C24_run_reached (hu : UserFns e ll lp bb hb) (hp : ProperLike ll) (hc : Configured e) (h : Session e hb s)
    (hd : Draws s.scaler.low s.scaler.high rnd) (fuel n : ℕ) (a : RunArgs) (hr : (run e rnd fuel n a s).2 = .ok s') :
    ∃ (stages : List Stage) (b : ℝ), Holds s'.particles.past stages ∧ Rect stages e.nActive ∧
      s'.particles.past.beta.getLast? = some (fin b) ∧ 1 - b < 1e-4 ∧ (a.nTotal : ℝ) ≤ sizeAt e.metric stages 1 := by
  obtain ⟨s1, s2, s3, h1, h2, h3, h4⟩ := run_ok hr
  obtain ⟨its, hi⟩ := h.inv hu hc
  have m1 : Moves e rnd s s1 := .single (.init a h1)
  obtain ⟨w1, w2⟩ := Along.runWarmup (e := e) (rnd := rnd) a s.t s1
  have m2 := (w1.to_end s2 h2).1
  obtain ⟨l1, l2⟩ := Along.smcLoop (e := e) (rnd := rnd) fuel a.saveEvery s.t n s2 (w2 s2 h2)
  have m3 := (l1.to_end s3 h3).1
  obtain ⟨-, hterm⟩ := l2 s3 h3
  obtain ⟨more, hi3, -⟩ := hi.moves hu hc hd ((m1.trans m2).trans m3)
  set its3 := its ++ more
  obtain ⟨ess, k1, k2⟩ := bind_ok hterm
  obtain ⟨c, k2, k3⟩ := bind_ok k2
  have hcur : s3.cur = some c := orErr_ok k2
  have hlast : its3.getLast? = some c.it := by rw [← hi3.cur, hcur]; rfl
  have hne : its3 ≠ [] := by rintro h; rw [h] at hlast; simp at hlast
  obtain ⟨bs, b1, b2, b3⟩ := hi3.betas
  obtain ⟨b, hb1, hb2⟩ := getLast_beta hlast b1
  obtain ⟨st, st1, st2, st3, st4⟩ := holds_of hc.1 hne hi3.rows (fun r hr => hr.2.2 hp) b1 (hi3.logz hp)
  rw [← hi3.past] at st1
  have hnt : s3.nTotal = a.nTotal := (run_args h1 h2 h3).1
  have hpast : s'.particles.past = s3.particles.past := by
    rcases finalEvidence_ok h4 with ⟨-, -, h⟩ | ⟨-, lw, z, -, rfl⟩
    · obtain ⟨inv, ll', bl, hbl, h1, h2, rfl⟩ := computeEvidence_ok h
      rfl
    · rfl
  rw [hpast]
  refine ⟨st, b, st1, st2, ?_, ?_⟩
  · rw [hi3.past]
    change (its3.map (·.beta)).getLast? = _
    rw [b1, List.getLast?_map, hb1]
    rfl
  · rw [essAt_fin _ st _ st2 st1] at k1
    simp only [Except.ok.injEq] at k1
    subst k1
    simp only [pure, Except.pure, Except.ok.injEq, Bool.or_eq_false_iff, decide_eq_false_iff_not, hb2, fin_sub, ge_iff_le, F.fin_le,
      F.ofNat, F.fin_lt, not_le, not_lt, hnt] at k3
    exact k3

/-! ### C60 -/

/-- C60: after a run, there is an error bar exactly when preconditioning is on and `n_evidence > 0`, and then evidence and
error are those of the importance sampling with the flow; otherwise the evidence is the one of the stored particles at
temperature 1. -/
theorem C60_which_evidence (e : SamplerEnv d B Φ) (rnd : Rnd d Φ) (fuel n : ℕ) (a : RunArgs) (s s' : Sampler d B Φ)
    (hr : (run e rnd fuel n a s).2 = .ok s') :
    (s'.logzErr.isSome = true ↔ (e.preconditioned = true ∧ 0 < a.nEvidence)) ∧
    (s'.logzErr = none → ∃ lw z, computeLogwLogz s'.particles.past (fin 1) = .ok (lw, z) ∧ s'.logz = some z) := by
  obtain ⟨s1, s2, s3, h1, h2, h3, h4⟩ := run_ok hr
  obtain ⟨-, hne⟩ := run_args h1 h2 h3
  rcases finalEvidence_ok h4 with ⟨g1, g2, h⟩ | ⟨g, lw, z, k, rfl⟩
  · obtain ⟨inv, ll', bl, hbl, h1, h2, rfl⟩ := computeEvidence_ok h
    exact ⟨⟨fun _ => ⟨g2, hne ▸ g1⟩, fun _ => rfl⟩, fun h => by cases h⟩
  · refine ⟨⟨fun h => by simp at h, fun h => absurd ⟨hne ▸ h.2, h.1⟩ g⟩, fun _ => ⟨lw, z, k, rfl⟩⟩
end

end Poco
