import Verif.Lemmas.Failure
import Verif.Lemmas.Flaky

/-! What holds of the stored history in every state of every session, failed runs included. The difference from `Inv`: after a failure `current_particles` need
not be the last stored iteration, and the flow may be marked as trained with no geometry. -/

namespace Poco
open F Spec

variable {d : ℕ} {B Φ : Type}

/-- `Inv` without what a failure (`q = true`) or an interrupt (`q = false`) destroys. -/
structure Kept (q : Bool) (e : SamplerEnv d B Φ) (ll lp : Pt d → F) (bb : Pt d → List B) (hb : Bool) (s : Sampler d B Φ)
    (its : List (Iter d (List B))) : Prop where
  past : s.particles.past = columns its
  rows : ∀ it ∈ its, HasRows e.nActive hb (GoodRow s.scaler ll lp bb hb) it
  cur : q = true → (s.cur = none ∧ its = []) ∨ ∃ c it, s.cur = some c ∧ its.getLast? = some it ∧ SameRest q hb it c.it
  curOk : ∀ c, s.cur = some c → (hb = false → c.it.blobs = none) ∧ List.length c.it.logw = e.nActive
  betas : ∃ bs : List ℝ, its.map (·.beta) = bs.map fin ∧ bs.Pairwise (· ≤ ·) ∧ ∀ b ∈ bs, 0 ≤ b ∧ b ≤ 1
  logz : ProperLike ll → ∀ it ∈ its, ∃ z, it.logz = fin z
  blobs : its ≠ [] → s.haveBlobs = hb
  blobs' : s.haveBlobs = true → hb = true
  bounds : ProperBounds s.scaler.low s.scaler.high
  scale : s.scaler.scale = true
  noPrior : s.priorSamples = none → its = []
  prior : ∀ ps, s.priorSamples = some ps → s.scaler.Ok ∧ ∃ xs : List (Fin d → ℝ), ps = xs.map pt ∧ xs.length = e.nPrior ∧
    ∀ x ∈ xs, StrictlyInside s.scaler.low s.scaler.high x
  warm : s.warmup = true → ∀ it ∈ its, it.beta = fin 0

variable {q : Bool} {e : SamplerEnv d B Φ} {ll lp : Pt d → F} {bb : Pt d → List B} {hb : Bool} {s s' : Sampler d B Φ} {rnd : Rnd d Φ}
  {its : List (Iter d (List B))}

theorem Inv.kept (h : Inv e ll lp bb hb s its) : Kept q e ll lp bb hb s its := by
  refine ⟨h.past, h.rows, fun _ => ?_, fun c hc => ?_, h.betas, h.logz, h.blobs, h.blobs', h.bounds, h.scale, h.noPrior, h.prior, h.warm⟩
  · have hcur := h.cur
    cases hc : s.cur with
    | none =>
      rw [hc] at hcur
      exact .inl ⟨rfl, by simpa using hcur.symm⟩
    | some c =>
      rw [hc] at hcur
      exact .inr ⟨c, c.it, rfl, hcur.symm, .refl _ _ _⟩
  · have hcur := h.cur
    rw [hc] at hcur
    obtain ⟨rows, -, hr, -, hl⟩ := h.rows c.it (List.mem_of_getLast? hcur.symm)
    exact ⟨fun hf => by rw [hr.blobs, hf]; rfl, hl⟩

theorem Kept.init (hc : Configured e) (hd : Draws s.scaler.low s.scaler.high rnd) (h : Kept q e ll lp bb hb s its)
    {a : RunArgs} (hm : runInit e rnd a s = .ok s') :
    Kept q e ll lp bb hb s' its ∧ s'.scaler.low = s.scaler.low ∧ s'.scaler.high = s.scaler.high := by
  unfold runInit at hm
  cases hps : s.priorSamples with
  | some ps =>
    simp only [hps, Except.ok.injEq] at hm
    subst hm
    exact ⟨⟨h.past, h.rows, h.cur, h.curOk, h.betas, h.logz, h.blobs, h.blobs', h.bounds, h.scale, fun hh => h.noPrior (by simpa [hps] using hh),
      fun ps' hps' => h.prior ps' (by simpa [hps] using hps'), h.warm⟩, rfl, rfl⟩
  | none =>
    have hits := h.noPrior hps
    subst hits
    simp only [hps] at hm
    obtain ⟨sc, h1, hm⟩ := bind_ok hm
    simp only [pure, Except.pure, Except.ok.injEq] at hm
    subst hm
    obtain ⟨xs, x1, x2, x3, x4⟩ := hd.prior e.nPrior
    have hpos : 1 < e.nPrior := hc.2.2
    obtain ⟨sc', f1, f2, -⟩ := C41_fit_standardises s.scaler h.bounds h.scale xs x3
      (by rintro rfl; simp at x2; omega) (x4 hpos)
    rw [← x1, h1] at f1
    simp only [Except.ok.injEq] at f1
    subst f1
    have hsc : sc.low = s.scaler.low ∧ sc.high = s.scaler.high ∧ sc.scale = s.scaler.scale := by
      unfold Scaler.fit at h1
      split at h1
      · cases h1
      · simp only [Except.ok.injEq] at h1
        subst h1
        exact ⟨rfl, rfl, rfl⟩
    refine ⟨⟨h.past, by simp, h.cur, h.curOk, h.betas, by simp, by simp, h.blobs', ?_, ?_, by simp, ?_, by simp⟩, hsc.1, hsc.2.1⟩
    · simp only [hsc]; exact h.bounds
    · simp only [hsc]; exact h.scale
    · intro ps hps'
      simp only [Option.some.injEq] at hps'
      subst hps'
      refine ⟨f2, xs, x1, x2, ?_⟩
      simp only [hsc]
      exact x3

theorem Kept.warmStep (hu : UserFns e ll lp bb hb) (hc : Configured e) (h : Kept q e ll lp bb hb s its) (hw : s.warmup = true)
    {i : ℕ} (hi : i < e.nPrior / e.nActive) (hm : warmupStep e rnd s i = .ok s') :
    ∃ it, Kept q e ll lp bb hb s' (its ++ [it]) ∧ s'.scaler = s.scaler := by
  cases hps : s.priorSamples with
  | none =>
    exfalso
    unfold warmupStep warmupBatch at hm
    rw [hps] at hm
    cases hm
  | some ps =>
    obtain ⟨hok, xs, rfl, x2, x3⟩ := h.prior ps hps
    have hlen : (i + 1) * e.nActive ≤ xs.length := by
      rw [x2]
      exact (Nat.le_div_iff_mul_le hc.1).mp hi
    obtain ⟨b, rows, ys, r1, r2, r3, y1, y2, rfl⟩ := warmupStep_ok hu hok h.blobs' hps x3 i hc.1 hlen hm
    refine ⟨_, ⟨update_columns _ its h.past _, ?_, ?_, ?_, ?_, ?_, fun _ => rfl, fun h => h, h.bounds, h.scale, by simp, ?_, ?_⟩, rfl⟩
    · intro it hit
      rcases List.mem_append.mp hit with hit | hit
      · exact h.rows it hit
      · simp only [List.mem_singleton] at hit
        subst hit
        exact ⟨rows, r1, r2, fun r hr => (r3 r hr).1, by simp [warmupIter]⟩
    · exact fun _ => .inr ⟨_, _, rfl, by simp, .refl _ _ _⟩
    · intro c hc'
      simp only [Option.some.injEq] at hc'
      subst hc'
      exact ⟨fun hf => by rw [r2.blobs, hf]; rfl, by simp [warmupIter]⟩
    · obtain ⟨bs, b1, b2, b3⟩ := h.betas
      refine ⟨bs ++ [0], by simp [b1, warmupIter], ?_, ?_⟩
      · refine pairwise_concat b2 fun x hx => ?_
        have : fin x ∈ its.map (·.beta) := by rw [b1]; exact List.mem_map_of_mem hx
        obtain ⟨it, hit, he⟩ := List.mem_map.mp this
        rw [h.warm hw it hit] at he
        simp only [fin_inj] at he
        exact he.symm.le
      · intro x hx
        rcases List.mem_append.mp hx with hx | hx
        · exact b3 x hx
        · simp at hx; subst hx; norm_num
    · intro hp it hit
      rcases List.mem_append.mp hit with hit | hit
      · exact h.logz hp it hit
      · simp only [List.mem_singleton] at hit
        subst hit
        exact ⟨0, rfl⟩
    · intro ps hps'
      simp only [Option.some.injEq] at hps'
      subst hps'
      exact ⟨hok, ys, rfl, y1.trans x2, fun y hy => x3 y (y2 y hy)⟩
    · intro _ it hit
      rcases List.mem_append.mp hit with hit | hit
      · exact h.warm hw it hit
      · simp only [List.mem_singleton] at hit
        subst hit
        rfl

/-- What one iteration of the main loop does, on a state satisfying the invariant. -/
theorem Kept.smcStep_spec (hu : UserFns e ll lp bb hb) (hc : Configured e) (hd : Draws s.scaler.low s.scaler.high rnd)
    (h : Kept q e ll lp bb hb s its) {fuel : ℕ} (hm : smcStep e rnd fuel s = .ok s') :
    ∃ (c c3 : Cur d B) (b β : ℝ) (r : McmcResult d (List B)), s.cur = some c ∧ its ≠ [] ∧ (its.map (·.beta)).getLast? = some (fin b) ∧
      c3.it.beta = fin β ∧ b ≤ β ∧ β ≤ 1 ∧ 0 ≤ b ∧
      HasRows e.nActive hb (GoodRow s.scaler ll lp bb hb) c3.it ∧ c3.it.iter = c.it.iter ∧ c3.it.logw = c.it.logw ∧
      (ProperLike ll → ∃ z, c3.it.logz = fin z) ∧
      r.calls = r.evaluated.length ∧ c3.it.calls = c.it.calls + r.calls ∧
      (∀ x ∈ r.evaluated, Callable s.scaler lp x) ∧
      s'.calls = c.it.calls + r.calls ∧ s'.evals = s.evals ++ r.evaluated ∧ s'.cur = some c3 ∧
      s'.particles = s.particles.update (Cols.full c3.it) ∧ s'.scaler = s.scaler ∧ s'.haveBlobs = s.haveBlobs ∧
      s'.priorSamples = s.priorSamples ∧ s'.warmup = s.warmup ∧ s'.t = s.t + 1 ∧
      (s.flowUntrained = false → s'.flowUntrained = false) ∧
      (e.preconditioned = true → s'.thetaGeometry.isSome = true) ∧
      (e.preconditioned = false → s'.uGeometry.isSome = true) ∧
      ((s.flowUntrained = false → s.thetaGeometry.isSome = true) → s'.flowUntrained = false → s'.thetaGeometry.isSome = true) := by
  obtain ⟨c, s1, c1, s2, c2, s3, c3, h0, h1, h2, h3, h4, rfl⟩ := smcStep_ok hm
  obtain ⟨hcb, hlogw⟩ := h.curOk c h0
  have hne : its ≠ [] := by
    rintro rfl
    obtain ⟨_, _, _, _, _, _, k1, -⟩ := reweight_ok h1
    rw [h.past] at k1
    unfold chooseBeta at k1
    obtain ⟨v, k2, -⟩ := bind_ok k1
    cases k2
  have hhb := h.blobs hne
  obtain ⟨bs, b1, b2, b3⟩ := h.betas
  obtain ⟨b, hb1, -⟩ := getLast_beta (List.getLast?_eq_getLast_of_ne_nil hne) b1
  have hbl : (its.map (·.beta)).getLast? = some (fin b) := by rw [b1, List.getLast?_map, hb1]; rfl
  have hb01 := b3 b (List.mem_of_getLast? hb1)
  obtain ⟨nEff, beta, logz, ess, w, tr, k1, k2, k3, k4, rfl⟩ := reweight_ok h1
  have hpl : s.particles.past.beta.getLast? = some (fin b) := by
    rw [h.past]
    change (its.map (·.beta)).getLast? = _
    rw [b1, List.getLast?_map, hb1]
    rfl
  obtain ⟨β, rfl, q1, q2⟩ := C21_beta_step _ _ _ _ b hb01.2 hpl _ _ _ k1
  rw [h.past, hhb] at k4
  obtain ⟨⟨rows1, -, g1, g2⟩, -, gl, gi, gc, -, -, -, gb, gz, -⟩ := gatherCur_ok hne h.rows hcb k4
  have hs2 : s2.haveBlobs = hb ∧ s2.scaler = s.scaler ∧ s2.particles = s.particles ∧ s2.priorSamples = s.priorSamples ∧
      s2.warmup = s.warmup ∧ s2.t = s.t + 1 ∧ s2.evals = s.evals ∧ (s.flowUntrained = false → s2.flowUntrained = false) ∧
      ((s.flowUntrained = false → s.thetaGeometry.isSome = true) → s2.flowUntrained = false → s2.thetaGeometry.isSome = true) := by
    rcases train_ok h2 with ⟨-, flow, g, rfl⟩ | ⟨-, g, rfl⟩
    · exact ⟨hhb, rfl, rfl, rfl, rfl, rfl, rfl, fun _ => rfl, fun _ _ => rfl⟩
    · exact ⟨hhb, rfl, rfl, rfl, rfl, rfl, rfl, fun h => h, fun h => h⟩
  obtain ⟨t1, t2, t3, t4, t5, t6, t7, t8, t9⟩ := hs2
  obtain ⟨⟨rows2, p1, p2, p3⟩, -, pl, pi, pc, -, -, -, pb, pz, -⟩ := resampleStep_ok t1 g1 g2 h3
  have hok : s.scaler.Ok := by
    cases hps : s.priorSamples with
    | none => exact absurd (h.noPrior hps) hne
    | some ps => exact (h.prior ps hps).1
  have hmg : ∃ g, (if e.preconditioned then s2.thetaGeometry else s2.uGeometry) = some g := by
    obtain ⟨ws, k, r, -, hk, -⟩ := mutate_ok h4
    obtain ⟨-, -, -, -, -, -, -, -, -, -, -, g, hg, -⟩ := kernelEnv_ok hk
    exact ⟨g, hg⟩
  obtain ⟨rows3, m1, m2, m3, ml, mb, mz, mi, r, r1, r2, r3, rfl⟩ := mutate_rows hu t1 (t2 ▸ hok) hd.mcmc (pb.trans gb)
    (le_trans hb01.1 q1) p2 (t2 ▸ p3) h4
  rw [t2] at m3 r3
  refine ⟨c, c3, b, β, r, h0, hne, hbl, (mb.trans pb).trans gb, q1, q2, hb01.1, ⟨rows3, m1.trans p1, m2, m3, ?_⟩,
    (mi.trans pi).trans gi, (ml.trans pl).trans gl, ?_, r1, ?_, r3, ?_, ?_, rfl, by simp only [t3], t2, t1.trans hhb.symm, t4, t5, t6, t8, ?_, ?_, t9⟩
  · rw [ml, pl, gl]; exact hlogw
  · intro hp
    obtain ⟨h', hh1, hh2, -, -⟩ := holds_of hc.1 hne h.rows (fun r hr => hr.2.2 hp) b1 (h.logz hp)
    rw [← h.past] at hh1
    obtain ⟨z, hz⟩ := chooseBeta_logz hh2 hh1 b hb01.2 hpl k1
    exact ⟨z, by rw [mz, pz, gz, hz]⟩
  · rw [r2, pc, gc]
  · simp only [pc, gc]
  · simp only [t7]
  · intro hp
    obtain ⟨g, hg⟩ := hmg
    rw [hp] at hg
    simp only [if_true] at hg
    simp [hg]
  · intro hp
    obtain ⟨g, hg⟩ := hmg
    rw [hp] at hg
    simp only [Bool.false_eq_true, if_false] at hg
    simp [hg]

theorem Kept.smc (hu : UserFns e ll lp bb hb) (hc : Configured e) (hd : Draws s.scaler.low s.scaler.high rnd)
    (hw : s.warmup = false) (h : Kept q e ll lp bb hb s its) {fuel : ℕ} (hm : smcStep e rnd fuel s = .ok s') :
    ∃ it, Kept q e ll lp bb hb s' (its ++ [it]) ∧ s'.scaler = s.scaler := by
  obtain ⟨c, c3, b, β, r, h0, h1, h2, h3, h4, h5, h5', h6, -, -, h7, -, -, -, -, -, h8, h9, h10, h11, h12, h13, -, -, -, -, h14⟩ :=
    h.smcStep_spec hu hc hd hm
  have hne : its ≠ [] := h1
  refine ⟨c3.it, ⟨by rw [h9]; exact update_columns _ its h.past _, ?_, ?_, ?_, ?_, ?_, fun _ => h11.trans (h.blobs hne),
    fun hh => h.blobs' (h11 ▸ hh), by rw [h10]; exact h.bounds, by rw [h10]; exact h.scale, ?_, ?_, ?_⟩, h10⟩
  · intro it hit
    rw [h10]
    rcases List.mem_append.mp hit with hit | hit
    · exact h.rows it hit
    · simp only [List.mem_singleton] at hit
      subst hit
      exact h6
  · exact fun _ => .inr ⟨c3, c3.it, h8, by simp, .refl _ _ _⟩
  · intro c' hc'
    rw [h8] at hc'
    simp only [Option.some.injEq] at hc'
    subst hc'
    obtain ⟨rows, -, hr, -, hl⟩ := h6
    exact ⟨fun hf => by rw [hr.blobs, hf]; rfl, hl⟩
  · obtain ⟨bs, b1, b2, b3⟩ := h.betas
    have hb1 : bs.getLast? = some b := by
      rw [b1, List.getLast?_map] at h2
      obtain ⟨b', g1, g2⟩ := Option.map_eq_some_iff.mp h2
      simp only [fin_inj] at g2
      rw [g1, g2]
    refine ⟨bs ++ [β], by simp [b1, h3], pairwise_concat b2 fun x hx => (le_getLast b2 hb1 x hx).trans h4, ?_⟩
    intro x hx
    rcases List.mem_append.mp hx with hx | hx
    · exact b3 x hx
    · simp at hx; subst hx; exact ⟨h5'.trans h4, h5⟩
  · intro hp it hit
    rcases List.mem_append.mp hit with hit | hit
    · exact h.logz hp it hit
    · simp only [List.mem_singleton] at hit
      subst hit
      exact h7 hp
  · intro hh
    rw [h12] at hh
    exact absurd (h.noPrior hh) hne
  · intro ps hps
    rw [h12] at hps
    rw [h10]
    exact h.prior ps hps
  · intro hh
    rw [h13, hw] at hh
    cases hh

theorem Kept.evid (hu : UserFns e ll lp bb hb) (hw : s.warmup = false) (h : Kept q e ll lp bb hb s its)
    (hm : finalEvidence e rnd s = .ok s') : Kept q e ll lp bb hb s' its ∧ s'.scaler = s.scaler := by
  rcases finalEvidence_ok hm with ⟨-, -, hm⟩ | ⟨-, lw, z, -, rfl⟩
  · obtain ⟨inv, ll', bl, hbl, h1, h2, rfl⟩ := computeEvidence_ok hm
    have hbl' : hbl = true → hb = true := by
      intro hh
      by_cases hx : keepFinite (e.logPrior (inv.map (·.1))) (inv.map (·.1)) = []
      · rw [hx, hu.nothing] at h2
        simp only [Except.ok.injEq, Prod.mk.injEq] at h2
        rw [← h2.2.2] at hh; cases hh
      · rw [hu.like _ hx] at h2
        simp only [Except.ok.injEq, Prod.mk.injEq] at h2
        rw [h2.2.2]; exact hh
    refine ⟨⟨h.past, h.rows, h.cur, h.curOk, h.betas, h.logz, ?_, ?_, h.bounds, h.scale, h.noPrior, h.prior, fun hh => by
      rw [hw] at hh; cases hh⟩, rfl⟩
    · intro hne
      simp only [h.blobs hne]
      cases hb <;> cases hbl <;> simp_all
    · intro hh
      simp only [Bool.or_eq_true] at hh
      rcases hh with hh | hh
      · exact h.blobs' hh
      · exact hbl' hh
  · exact ⟨⟨h.past, h.rows, h.cur, h.curOk, h.betas, h.logz, h.blobs, h.blobs', h.bounds, h.scale, h.noPrior, h.prior, h.warm⟩, rfl⟩

theorem Kept.move (hu : UserFns e ll lp bb hb) (hc : Configured e) (hd : Draws s.scaler.low s.scaler.high rnd)
    (h : Kept q e ll lp bb hb s its) (hm : Move e rnd s s') :
    ∃ more, Kept q e ll lp bb hb s' (its ++ more) ∧ s'.scaler.low = s.scaler.low ∧ s'.scaler.high = s.scaler.high := by
  cases hm with
  | init a hm =>
    obtain ⟨k1, k2, k3⟩ := h.init hc hd hm
    exact ⟨[], by simpa using k1, k2, k3⟩
  | warm i hw hi hm =>
    obtain ⟨it, k1, k2⟩ := h.warmStep hu hc hw hi hm
    exact ⟨[it], k1, by rw [k2], by rw [k2]⟩
  | endWarm hw =>
    refine ⟨[], ?_, rfl, rfl⟩
    rw [List.append_nil]
    exact ⟨h.past, h.rows, h.cur, h.curOk, h.betas, h.logz, h.blobs, h.blobs', h.bounds, h.scale, h.noPrior, h.prior,
      fun hh => by cases hh⟩
  | smc fuel hw hm =>
    obtain ⟨it, k1, k2⟩ := h.smc hu hc hd hw hm
    exact ⟨[it], k1, by rw [k2], by rw [k2]⟩
  | evidence hw hm =>
    obtain ⟨k1, k2⟩ := h.evid hu hw hm
    exact ⟨[], by simpa using k1, by rw [k2], by rw [k2]⟩

theorem Kept.moves (hu : UserFns e ll lp bb hb) (hc : Configured e) (hd : Draws s.scaler.low s.scaler.high rnd)
    (h : Kept q e ll lp bb hb s its) (hm : Moves e rnd s s') :
    ∃ more, Kept q e ll lp bb hb s' (its ++ more) ∧ s'.scaler.low = s.scaler.low ∧ s'.scaler.high = s.scaler.high := by
  induction hm with
  | refl => exact ⟨[], by simpa using h, rfl, rfl⟩
  | tail _ hm ih =>
    obtain ⟨m1, k1, k2, k3⟩ := ih
    obtain ⟨m2, l1, l2, l3⟩ := k1.move hu hc (by rw [k2, k3]; exact hd) hm
    exact ⟨m1 ++ m2, by rw [← List.append_assoc]; exact l1, l2.trans k2, l3.trans k3⟩


/-! ### what an iteration reads of `current_particles` -/

section
variable {fuel : ℕ}

theorem gatherCur_same {past : Cols d (List B) List} {c c' : Cur d B} (h : SameRest true hb c.it c'.it) (idx : List ℕ) (w : List F) (beta logz ess : F) :
    gatherCur past hb c' idx w beta logz ess = gatherCur past hb c idx w beta logz ess := by
  have hit : ∀ (u x : List (Pt d)) (ld l lp : List F) (bl : Option (List (List B))), ({ c'.it with u := u, x := x, logdetj := ld, logl := l, logp := lp, blobs := bl, logz := logz, beta := beta, ess := ess } : Iter d (List B)) =
      { c.it with u := u, x := x, logdetj := ld, logl := l, logp := lp, blobs := bl, logz := logz, beta := beta, ess := ess } := by
    intro u x ld l lp bl
    obtain ⟨it', w'⟩ := c'
    obtain ⟨it, w⟩ := c
    obtain ⟨h1, h2, h, -⟩ := h
    obtain ⟨h3, h4, h5, h6⟩ := h rfl
    simp only at h1 h2 h3 h4 h5 h6
    simp only [h1, h2, h3, h4, h5, h6]
  unfold gatherCur
  cases hb with
  | true => simp only [if_true, hit]
  | false => simp only [Bool.false_eq_true, if_false, hit, h.blobs rfl]

/-- An iteration of the main loop reads of `current_particles` only the keys that iterations leave alone. -/
theorem smcStep_same {c c' : Cur d B} (hc : s.cur = some c) (h : SameRest true s.haveBlobs c.it c'.it) :
    smcStep e rnd fuel { s with cur := some c' } = smcStep e rnd fuel s := by
  rw [smcStep_eq, smcStep_eq, hc]
  change (reweight e fuel { s with cur := some c' } c' >>= _) = (reweight e fuel s c >>= _)
  have hr : reweight e fuel { s with cur := some c' } c' = (reweight e fuel s c).map fun r => ({ r.1 with cur := some c' }, r.2) := by
    unfold reweight
    change (chooseBeta s.particles.past e.metric (F.ofNat s.nEffective) fuel >>= _) = Except.map _ (chooseBeta s.particles.past e.metric (F.ofNat s.nEffective) fuel >>= _)
    cases chooseBeta s.particles.past e.metric (F.ofNat s.nEffective) fuel with
    | error x => rfl
    | ok v =>
      obtain ⟨beta, logz, ess⟩ := v
      change (reweightWeights e { s with t := s.t + 1 } beta >>= _) = Except.map _ (reweightWeights e { s with t := s.t + 1 } beta >>= _)
      cases reweightWeights e { s with t := s.t + 1 } beta with
      | error x => rfl
      | ok v =>
        obtain ⟨w, nEff⟩ := v
        change (trimWeights (List.range w.length) w (fin 0.99) 1000 >>= _) = Except.map _ (trimWeights (List.range w.length) w (fin 0.99) 1000 >>= _)
        cases trimWeights (List.range w.length) w (fin 0.99) 1000 with
        | error x => rfl
        | ok tr =>
          change (gatherCur s.particles.past s.haveBlobs c' tr.samples tr.weights beta logz ess >>= _) = Except.map _ (gatherCur s.particles.past s.haveBlobs c tr.samples tr.weights beta logz ess >>= _)
          rw [gatherCur_same h]
          cases gatherCur s.particles.past s.haveBlobs c tr.samples tr.weights beta logz ess <;> rfl
  rw [hr]
  cases reweight e fuel s c <;> rfl

end

end Poco
