import Verif.Spec.ZeroRegion
import Verif.Lemmas.Flat
import Verif.Props.SmcAdapt
import Verif.Props.Progress
import Verif.Props.Posterior
import Verif.Props.ErrorBar
import Verif.Props.Diagnostics
import Verif.Props.Shift
import Verif.Lemmas.Stream
import Verif.Props.Memory
import Mathlib.MeasureTheory.Measure.Dirac

/-! C145: a likelihood that is zero in part of the prior. -/

namespace Poco
open F Spec MeasureTheory
open scoped ENNReal

variable {d : ℕ} {B Φ : Type} {e : SamplerEnv d B Φ} {rnd : Rnd d Φ} {ll lp : Pt d → F} {bb : Pt d → List B} {hb : Bool}

/-- The evidence an iteration of the main loop records. -/
theorem smcStep_logz {fuel : ℕ} {s s' : Sampler d B Φ} (h : smcStep e rnd fuel s = .ok s') :
    ∃ β z ess, chooseBeta s.particles.past e.metric (F.ofNat s.nEffective) fuel = .ok (β, z, ess) ∧
      s'.particles.past.logz = s.particles.past.logz ++ [z] := by
  obtain ⟨c, s1, c1, s2, c2, s3, c3, h0, h1, h2, h3, h4, rfl⟩ := smcStep_ok h
  obtain ⟨nEff, beta, logz, ess, w, tr, k1, -, -, g, rfl⟩ := reweight_ok h1
  obtain ⟨-, -, g3, -⟩ := gatherCur_keeps g
  obtain ⟨-, -, r3, -⟩ := resampleStep_keeps h3
  obtain ⟨-, -, m3, -, m5⟩ := mutate_keeps h4
  have h2' : s2.particles = s.particles := by
    rcases train_ok h2 with ⟨-, f, g, rfl⟩ | ⟨-, g, rfl⟩ <;> rfl
  refine ⟨beta, logz, ess, k1, ?_⟩
  show (s3.particles.update (Cols.full c3.it)).past.logz = _
  rw [m5, h2', ← g3, ← r3, ← m3]
  rfl

theorem flatStages_of (hll : ∀ x, ll x = fin 0 ∨ ll x = ninf) {s : Sampler d B Φ} {its : List (Iter d (List B))}
    (h : Inv e ll lp bb hb s its) {H : List Stage} (hH : Holds s.particles.past H) (hz : ∀ z ∈ s.particles.past.logz, z = fin 0) :
    FlatStages H := by
  intro st hst
  constructor
  · have : fin st.logz ∈ H.map (fun s => fin s.logz) := List.mem_map_of_mem hst
    rw [← hH.2.2] at this
    simpa using hz _ this
  · intro l hl'
    have hlogl : (its.map fun it => it.logl) = H.map (fun s => s.logl.map fin) := by
      have := hH.1
      rw [h.past] at this
      exact this
    have : st.logl.map fin ∈ H.map (fun s => s.logl.map fin) := List.mem_map_of_mem hst
    rw [← hlogl] at this
    obtain ⟨it, h1, h2⟩ := List.mem_map.mp this
    obtain ⟨rows, r1, r2, r3, -⟩ := h.rows it h1
    have hm : fin l ∈ st.logl.map fin := List.mem_map_of_mem hl'
    rw [← h2, r2.logl] at hm
    obtain ⟨r, hr, hrl⟩ := List.mem_map.mp hm
    rw [(r3 r hr).1.2.2.1] at hrl
    rcases hll r.x with h0 | h0 <;> rw [h0] at hrl
    · simpa using hrl.symm
    · cases hrl

theorem properLike_of (hll : ∀ x, ll x = fin 0 ∨ ll x = ninf) : ProperLike ll :=
  fun x => (hll x).elim (fun h => .inr ⟨0, h⟩) .inl

theorem computeLogwLogz_flat (hc : Configured e) (hll : ∀ x, ll x = fin 0 ∨ ll x = ninf) {s : Sampler d B Φ}
    {its : List (Iter d (List B))} (h : Inv e ll lp bb hb s its) (hz : ∀ z ∈ s.particles.past.logz, z = fin 0) {β : ℝ} {lw : List F} {z : F}
    (hw : computeLogwLogz s.particles.past (fin β) = .ok (lw, z)) : z = fin 0 := by
  by_cases hne : its = []
  · exfalso
    rw [h.past, hne] at hw
    unfold computeLogwLogz at hw
    simp [columns] at hw
  · obtain ⟨H, b, z', hH, hR, -⟩ := h.stages hc (properLike_of hll) hne
    rw [computeLogwLogz_fin _ H _ hR hH, flat_logz hR (flatStages_of hll h hH hz)] at hw
    simp only [Except.ok.injEq, Prod.mk.injEq] at hw
    exact hw.2.symm

theorem zero_moves (hu : UserFns e ll lp bb hb) (hc : Configured e) (hll : ∀ x, ll x = fin 0 ∨ ll x = ninf) {s s' : Sampler d B Φ}
    {its : List (Iter d (List B))} (hi : Inv e ll lp bb hb s its) (hd : Draws s.scaler.low s.scaler.high rnd)
    (h0 : ∀ z ∈ s.particles.past.logz, z = fin 0) (hm : Moves e rnd s s') : ∀ z ∈ s'.particles.past.logz, z = fin 0 := by
  induction hm with
  | refl => exact h0
  | @tail s1 s2 hm0 hm ih =>
    obtain ⟨m1, k1, k2, k3⟩ := hi.moves hu hc hd hm0
    refine move_diag (fun p _ => ∀ z ∈ p.logz, z = fin 0) ?_ ?_ hm ih
    · intro q q' i hq hi' z hz
      obtain ⟨b0, hb', b, -, -, rfl⟩ := warmupStep_shape hq
      simp only [Particles.update, Cols.full, warmupIter, Option.toList_some, List.mem_append, List.mem_singleton] at hz
      rcases hz with hz | hz
      · exact hi' z hz
      · exact hz
    · intro fuel hq hi' z hz
      obtain ⟨β, z', ess, g1, g2⟩ := smcStep_logz hq
      rw [g2] at hz
      rcases List.mem_append.1 hz with hz | hz
      · exact hi' z hz
      rw [List.mem_singleton.1 hz]
      rcases chooseBeta_cases g1 with ⟨-, g3⟩ | ⟨lw, g3⟩
      · exact hi' _ (getAt_mem g3)
      · have hbs := k1.betas
        obtain ⟨bs, b1, b2, b3⟩ := hbs
        have hps : s1.particles.past.beta = bs.map fin := by rw [k1.past]; exact b1
        obtain ⟨β', rfl⟩ : ∃ r, β = fin r := by
          rcases List.eq_nil_or_concat bs with rfl | ⟨bs', b, rfl⟩
          · exfalso
            simp only [chooseBeta, hps, List.map_nil] at g1
            obtain ⟨_, h1, -⟩ := bind_ok g1
            exact absurd (getAt_mem h1) (by simp)
          · obtain ⟨β', q, -⟩ := C21_beta_step _ _ _ _ b (b3 b (by simp)).2 (by rw [hps]; simp) _ _ _ g1
            exact ⟨β', q⟩
        exact computeLogwLogz_flat hc hll k1 hi' g3

/-- After any sequence of calls, every log-evidence recorded is 0. -/
theorem zero_session (hu : UserFns e ll lp bb hb) (hc : Configured e) (hll : ∀ x, ll x = fin 0 ∨ ll x = ninf) {s : Sampler d B Φ} (hs : Session e hb s) :
    ∀ z ∈ s.particles.past.logz, z = fin 0 := by
  induction hs with
  | fresh hf => rw [hf.particles]; simp [Particles.init]
  | ran rnd fuel n a h hd hr ih =>
    obtain ⟨its, hi⟩ := h.inv hu hc (ll := ll) (lp := lp) (bb := bb)
    exact zero_moves hu hc hll hi hd ih (Along.run fuel n a _ |>.to_end _ hr).1
  | loaded rnd fuel n a sv h hd hsv ih =>
    obtain ⟨its, hi⟩ := h.inv hu hc (ll := ll) (lp := lp) (bb := bb)
    exact zero_moves hu hc hll hi hd ih (Along.run fuel n a _ |>.from_start _ hsv)

/-- The evidence of a likelihood that is 1 on a region and 0 elsewhere is the prior probability of the region. -/
theorem trueEvidence_indicator {α : Type*} [MeasurableSpace α] (π : Measure α) (ll : α → F) (hll : ∀ x, ll x = fin 0 ∨ ll x = ninf)
    (hm : MeasurableSet {x | ll x = fin 0}) : trueEvidence π ll = π {x | ll x = fin 0} := by
  unfold trueEvidence
  rw [← lintegral_indicator_one hm]
  congr 1
  funext x
  by_cases hx : ll x = fin 0
  · rw [Set.indicator_of_mem (by exact hx), hx]
    simp [likelihood]
  · rw [Set.indicator_of_notMem (by exact hx), (hll x).resolve_left hx]
    rfl

/-- **C145, refuted exactly.** With a likelihood that is 1 on a region and 0 elsewhere the evidence is the prior probability of the
region, whatever the prior.  `evidence()` reports log 1 for every region, seed and configuration without the flow's importance
sampling, and so does every recorded iteration. -/
theorem C145_whole_run (hu : UserFns e ll lp bb hb) (hc : Configured e) (hll : ∀ x, ll x = fin 0 ∨ ll x = ninf) {s s' : Sampler d B Φ}
    (hs : Session e hb s) (hd : Draws s.scaler.low s.scaler.high rnd) {fuel n : ℕ} {a : RunArgs}
    (hr : (run e rnd fuel n a s).2 = .ok s') (hno : ¬ (e.preconditioned = true ∧ 0 < a.nEvidence)) :
    evidence s' = (some (fin (Real.log 1)), none) ∧ (∀ z ∈ s'.particles.past.logz, z = fin (Real.log 1)) ∧
    ∀ [MeasurableSpace (Pt d)] (π : Measure (Pt d)), MeasurableSet {x | ll x = fin 0} → trueEvidence π ll = π {x | ll x = fin 0} := by
  have hs' : Session e hb s' := .ran rnd fuel n a hs hd hr
  have hz := zero_session hu hc hll hs'
  obtain ⟨H, h1, h2, h3⟩ := C60_smc_value hu (properLike_of hll) hc hs hd hr hno
  obtain ⟨its, hi⟩ := hs'.inv hu hc (ll := ll) (lp := lp) (bb := bb)
  refine ⟨?_, by simpa using hz, fun π hm => trueEvidence_indicator π ll hll hm⟩
  rw [h3, flat_logz h2 (flatStages_of hll hi h1 hz), Real.log_one]

/-! ### what a warm-up batch contributes -/

theorem maskSelect_of_map {α β : Type*} (f : α → β) (mask : List Bool) (a : List α) :
    maskSelect mask (a.map f) = (maskSelect mask a).map f := by
  unfold maskSelect
  induction mask generalizing a with
  | nil => simp
  | cons m mask ih =>
    cases a with
    | nil => simp
    | cons x a => cases m <;> simp [ih]

theorem maskSelect_cons {α : Type*} (m : Bool) (mask : List Bool) (x : α) (a : List α) :
    maskSelect (m :: mask) (x :: a) = if m then x :: maskSelect mask a else maskSelect mask a := by
  unfold maskSelect
  cases m <;> simp

theorem fill_perm {α : Type} (mask : List Bool) : ∀ (rest vals pre : List α), mask.length = rest.length → vals.length = mask.count true →
    (((maskSelect mask (List.range' pre.length rest.length)).zip vals).foldl (fun a q => a.set q.1 q.2) (pre ++ rest)).Perm
      (pre ++ (maskSelect (mask.map (!·)) rest ++ vals)) := by
  induction mask with
  | nil =>
    intro rest vals pre h1 h2
    obtain rfl := List.length_eq_zero_iff.1 h1.symm
    obtain rfl := List.length_eq_zero_iff.1 (by simpa using h2)
    simp [maskSelect]
  | cons m mask ih =>
    intro rest vals pre h1 h2
    cases rest with
    | nil => simp at h1
    | cons x rest =>
      simp only [List.length_cons, Nat.add_right_cancel_iff] at h1
      rw [List.length_cons, List.range'_succ, maskSelect_cons, List.map_cons, maskSelect_cons]
      cases m with
      | false =>
        have := ih rest vals (pre ++ [x]) h1 (by simpa using h2)
        simpa using this
      | true =>
        cases vals with
        | nil => simp at h2
        | cons v vals =>
          have := ih rest vals (pre ++ [v]) h1 (by simpa using h2)
          simp only [if_true, List.zip_cons_cons, List.foldl_cons, Bool.not_true, Bool.false_eq_true, if_false]
          have hset : (pre ++ x :: rest).set pre.length v = (pre ++ [v]) ++ rest := by
            rw [List.set_append_right _ _ le_rfl]
            simp
          rw [hset]
          refine (by simpa using this : List.Perm _ _).trans ?_
          refine List.Perm.append_left _ ?_
          exact List.perm_middle.symm

theorem maskSelect_nonzero (l : List F) : maskSelect ((l.map F.isinf).map (!·)) l = nonzero l := by
  induction l with
  | nil => rfl
  | cons v l ih =>
    rw [List.map_cons, List.map_cons, maskSelect_cons, ih]
    simp only [nonzero, List.filter_cons]

theorem count_inf (l : List F) : (l.map F.isinf).count true = l.length - (nonzero l).length := by
  have : (l.map F.isinf).count true + (nonzero l).length = l.length := by
    induction l with
    | nil => rfl
    | cons v l ih =>
      cases h : v.isinf <;> simp [nonzero, h] at ih ⊢ <;> omega
  omega

theorem length_maskSelect {α : Type*} (mask : List Bool) (a : List α) (h : mask.length = a.length) :
    (maskSelect mask a).length = mask.count true := by
  induction mask generalizing a with
  | nil => simp [maskSelect]
  | cons m mask ih =>
    cases a with
    | nil => simp at h
    | cons x a =>
      rw [maskSelect_cons]
      cases m <;> simp [ih a (by simpa using h)]

/-- The log-likelihoods of a warm-up batch after the replacement: those that are not infinite, and for each infinite one a chosen one. -/
theorem replaceInf_perm {b b' : Batch d B} {draw : ℕ → ℕ} (h : replaceInf b hb draw = .ok b') :
    b'.logl.Perm (nonzero b.logl ++ (List.range (b.logl.length - (nonzero b.logl).length)).map
      fun k => (nonzero b.logl).getD (draw k % (nonzero b.logl).length) ninf) := by
  have hl : b.logl = (List.range b.logl.length).map fun i => b.logl.getD i ninf := by
    apply List.ext_getElem
    · simp
    · intro i h1 h2
      simp [h1]
  have hfins : nonzero b.logl = (maskSelect ((b.logl.map F.isinf).map (!·)) (List.range b.logl.length)).map fun i => b.logl.getD i ninf := by
    rw [← maskSelect_of_map, ← hl, maskSelect_nonzero]
  have hinf : (maskSelect (b.logl.map F.isinf) (List.range b.logl.length)).length = b.logl.length - (nonzero b.logl).length := by
    rw [length_maskSelect _ _ (by simp), count_inf]
  unfold replaceInf at h
  obtain ⟨⟨dst, src⟩, h1, h⟩ := bind_ok h
  simp only [infDonors] at h1
  split_ifs at h1 with q1 q2
  · simp only [Except.ok.injEq, Prod.mk.injEq] at h1
    obtain ⟨rfl, rfl⟩ := h1
    simp only [if_true, pure, Except.pure, Except.ok.injEq] at h
    subst h
    rw [q1] at hinf
    rw [← hinf]
    have : nonzero b.logl = b.logl := by
      unfold nonzero
      apply List.Sublist.eq_of_length List.filter_sublist
      have := List.length_filter_le (fun v : F => !v.isinf) b.logl
      simp only [List.length_nil, nonzero] at hinf
      omega
    rw [this]
    simp
  · simp only [Except.ok.injEq, Prod.mk.injEq] at h1
    obtain ⟨rfl, rfl⟩ := h1
    simp only [if_neg q1] at h
    obtain ⟨x, -, h⟩ := bind_ok h
    obtain ⟨u, -, h⟩ := bind_ok h
    obtain ⟨j, -, h⟩ := bind_ok h
    obtain ⟨p, -, h⟩ := bind_ok h
    obtain ⟨l, h5, h⟩ := bind_ok h
    obtain ⟨bl, -, h⟩ := bind_ok h
    simp only [pure, Except.pure, Except.ok.injEq] at h
    subst h
    dsimp only
    unfold copyRows at h5
    obtain ⟨vals, g1, h5⟩ := bind_ok h5
    simp only [pure, Except.pure, Except.ok.injEq] at h5
    subst h5
    generalize hF : maskSelect ((b.logl.map F.isinf).map (!·)) (List.range b.logl.length) = fins at *
    have hv : vals = (List.range (b.logl.length - (nonzero b.logl).length)).map
        fun k => (nonzero b.logl).getD (draw k % (nonzero b.logl).length) ninf := by
      unfold gather at g1
      obtain ⟨m1, m2⟩ := mapM_eq_ok g1
      have hpos : 0 < fins.length := List.length_pos_iff.2 q2
      apply List.ext_getElem
      · simpa [hinf] using m1
      · intro i i1 i2
        have i3 : i < (maskSelect (b.logl.map F.isinf) (List.range b.logl.length)).length := by simpa [hinf] using i2
        have i4 : draw i % fins.length < fins.length := Nat.mod_lt _ hpos
        obtain ⟨v, v1, v2⟩ := m2 i (fins[draw i % fins.length]) (by simp [i3, i4])
        rw [List.getElem?_eq_getElem i1, Option.some.injEq] at v1
        rw [v1, List.getElem_map, List.getElem_range, hfins]
        cases hq : b.logl[fins[draw i % fins.length]]? with
        | none => rw [hq] at v2; cases v2
        | some w =>
          rw [hq] at v2
          simp only [Except.ok.injEq] at v2
          subst v2
          simp [i4, hq]
    rw [← hv]
    have := fill_perm (b.logl.map F.isinf) b.logl vals [] (by simp) (by rw [hv]; simp [count_inf])
    rw [maskSelect_nonzero] at this
    simpa [List.range_eq_range'] using this

/-- Averaging over all choices of donors. -/
theorem sum_choices (r m : ℕ) (h : Fin m → ℝ) : (m : ℝ) * ∑ f : Fin r → Fin m, ∑ k, h (f k) = r * m ^ r * ∑ j, h j := by
  have key : ∀ k : Fin r, (m : ℝ) * ∑ f : Fin r → Fin m, h (f k) = m ^ r * ∑ j, h j := by
    intro k
    rw [← Equiv.sum_comp (Equiv.funSplitAt k (Fin m)).symm, Fintype.sum_prod_type]
    have : ∀ (x : Fin m) (y : {j // j ≠ k} → Fin m), (Equiv.funSplitAt k (Fin m)).symm (x, y) k = x := by
      intro x y
      simp [Equiv.funSplitAt]
    simp only [this, Finset.sum_const, Finset.card_univ, Fintype.card_fun, Fintype.card_subtype_compl, Fintype.card_fin, Fintype.card_unique,
      nsmul_eq_mul, Nat.cast_pow, ← Finset.mul_sum]
    rw [← mul_assoc]
    congr 1
    have : r = (r - 1) + 1 := by have := k.pos; omega
    conv_rhs => rw [this, pow_succ]
    ring
  rw [Finset.sum_comm, Finset.mul_sum, Finset.sum_congr rfl fun k _ => key k]
  simp
  ring

theorem power_nonzero (β : ℝ) (l : List F) : ((nonzero l).map (power β)).sum = (l.map (power β)).sum := by
  induction l with
  | nil => rfl
  | cons v l ih =>
    unfold nonzero at *
    rw [List.filter_cons]
    cases hv : v.isinf
    · simp [ih]
    · have : power β v = 0 := by cases v <;> simp_all [F.isinf, power]
      simp [ih, this]

/-- **C145, one batch.** Of a warm-up batch of `n` prior samples `m ≥ 1` have a likelihood that is not zero; `n - m` indices choose the
particles that replace the others.  Averaged over all choices, the mean of the stored likelihoods, to any power, is `n / m` times
the mean over the samples that were drawn. -/
theorem C145_average {b : Batch d B} {rows : List (Row d (List B))} (hB : BatchRows hb b rows) (hex : ∃ l ∈ b.logl, ¬ IsInf l) :
    ∃ out : (Fin (b.logl.length - (nonzero b.logl).length) → Fin (nonzero b.logl).length) → Batch d B,
      (∀ f (draw : ℕ → ℕ), (∀ k : Fin _, draw k = f k) → replaceInf b hb draw = .ok (out f)) ∧
      ∀ β, (∑ f, ((out f).logl.map (power β)).sum / b.logl.length) /
          ((nonzero b.logl).length : ℝ) ^ (b.logl.length - (nonzero b.logl).length) =
        ((b.logl.length : ℝ) / (nonzero b.logl).length) * ((b.logl.map (power β)).sum / b.logl.length) := by
  have hm : 0 < (nonzero b.logl).length := by
    obtain ⟨l, h1, h2⟩ := hex
    exact List.length_pos_of_mem (List.mem_filter.2 ⟨h1, by simpa using (isinf_false_iff l).2 h2⟩)
  have hn : (nonzero b.logl).length ≤ b.logl.length := List.length_filter_le _ _
  have hrows : ∃ r ∈ rows, ¬ IsInf r.logl := by
    obtain ⟨l, h1, h2⟩ := hex
    rw [hB.logl] at h1
    obtain ⟨r, h3, rfl⟩ := List.mem_map.1 h1
    exact ⟨r, h3, h2⟩
  let dr : (Fin (b.logl.length - (nonzero b.logl).length) → Fin (nonzero b.logl).length) → ℕ → ℕ := fun f k => if h : k < _ then (f ⟨k, h⟩ : ℕ) else 0
  have hout : ∀ f, ∃ b', replaceInf b hb (dr f) = .ok b' := fun f => by
    obtain ⟨b', -, h, -⟩ := (C46_replace hb b rows hB (dr f)).2 (.inl hrows)
    exact ⟨b', h⟩
  choose out hout using hout
  refine ⟨out, fun f draw hdraw => ?_, fun β => ?_⟩
  · rw [← hout f]
    apply replaceInf_congr
    intro k hk
    rw [count_inf] at hk
    simp only [dr, hk, dif_pos]
    exact hdraw ⟨k, hk⟩
  have hsum : ∀ f, ((out f).logl.map (power β)).sum = (b.logl.map (power β)).sum + ∑ k, power β (nonzero b.logl)[f k] := by
    intro f
    rw [((replaceInf_perm (hout f)).map (power β)).sum_eq, List.map_append, List.sum_append, power_nonzero, List.map_map]
    congr 1
    rw [← List.sum_ofFn]
    congr 1
    apply List.ext_getElem
    · simp
    · intro k k1 k2
      have k3 : k < b.logl.length - (nonzero b.logl).length := by simpa using k1
      have k4 : (f ⟨k, k3⟩ : ℕ) % (nonzero b.logl).length = f ⟨k, k3⟩ := Nat.mod_eq_of_lt (f ⟨k, k3⟩).2
      simp [dr, k3, k4]
  have hc := sum_choices (b.logl.length - (nonzero b.logl).length) (nonzero b.logl).length fun j => power β (nonzero b.logl)[j]
  have hS : ∑ j : Fin (nonzero b.logl).length, power β (nonzero b.logl)[j] = (b.logl.map (power β)).sum := by
    rw [← power_nonzero, ← List.sum_ofFn]
    congr 1
    apply List.ext_getElem <;> simp
  rw [hS] at hc
  simp only [hsum]
  clear hsum hS
  clear hout
  clear out
  clear dr
  rw [← Finset.sum_div, Finset.sum_add_distrib]
  generalize (∑ f : Fin (b.logl.length - (nonzero b.logl).length) → Fin (nonzero b.logl).length, ∑ k, power β (nonzero b.logl)[f k]) = T at *
  simp only [Finset.sum_const, Finset.card_univ, Fintype.card_fun, Fintype.card_fin, nsmul_eq_mul, Nat.cast_pow]
  generalize (b.logl.map (power β)).sum = S at *
  rw [Nat.cast_sub hn] at hc
  generalize hr : b.logl.length - (nonzero b.logl).length = r at *
  generalize b.logl.length = n at *
  generalize (nonzero b.logl).length = m at *
  have h1 : (0 : ℝ) < m := by exact_mod_cast hm
  have h2 : (0 : ℝ) < n := by exact_mod_cast hm.trans_le hn
  have hT : T = (n - m) * m ^ r * S / m := by field_simp; linarith
  rw [hT]
  field_simp
  ring

/-- **C145, the part that holds.** When no prior sample of the batch has an infinite log-likelihood, the batch is stored as it is. -/
theorem C145_nothing_replaced_partial {b : Batch d B} (h : ∀ l ∈ b.logl, ¬ IsInf l) (draw : ℕ → ℕ) : replaceInf b hb draw = .ok b := by
  unfold replaceInf
  rw [infDonors_none fun l hl => (isinf_false_iff l).2 (h l hl)]
  rfl

end Poco

namespace Poco.Demo
open F Spec MeasureTheory
open scoped ENNReal

/-- Likelihood 1 where the first parameter is at most 2, 0 elsewhere. -/
noncomputable def ll145 : Pt 2 → F := fun x => if x 0 > fin 2 then ninf else fin 0

/-- The prior: the points 0, 1, 2, 3 in both coordinates, with equal probabilities. -/
noncomputable def prior145 : @Measure (Pt 2) ⊤ := letI : MeasurableSpace (Pt 2) := ⊤
  ∑ k : Fin 4, (4⁻¹ : ℝ≥0∞) • Measure.dirac (pt fun _ => (k : ℝ))

/-- **C145 is false.** A run whose prior samples are the points 0, 1, 2, 3: the likelihood is 1 at three of them, the evidence is 3/4,
and the run reports log 1. -/
theorem C145_not_always : ∃ s : Sampler 2 Unit Unit, Draws start.scaler.low start.scaler.high rnd ∧
    rnd.prior (envOf ll145 fun _ => fin 0).nPrior = [pt fun _ => 0, pt fun _ => 1, pt fun _ => 2, pt fun _ => 3] ∧
    (run (envOf ll145 fun _ => fin 0) rnd 0 1 (args 0) start).2 = .ok s ∧ evidence s = (some (fin (Real.log 1)), none) ∧
    @trueEvidence (Pt 2) ⊤ prior145 ll145 = 3 / 4 := by
  letI : MeasurableSpace (Pt 2) := ⊤
  have hll : ∀ x, ll145 x = fin 0 ∨ ll145 x = ninf := fun x => by
    unfold ll145
    split_ifs
    · exact .inr rfl
    · exact .inl rfl
  have hprior : rnd.prior (envOf ll145 fun _ => fin 0).nPrior = [pt fun _ => 0, pt fun _ => 1, pt fun _ => 2, pt fun _ => 3] := by
    simp [rnd, envOf, env, List.range_succ]
  have hrel : Reliable (envOf ll145 fun _ => fin 0) rnd :=
    { geo := fun _ _ _ => ⟨_, rfl⟩
      flow := fun _ _ _ _ => ⟨_, rfl⟩
      inv := fun m => ⟨m, rfl⟩
      chol := fun m => ⟨m, rfl⟩
      dim := by simp [env, envOf]
      freq := by simp [env, envOf]
      ratio := ⟨_, rfl⟩
      mult := fun _ _ => ⟨le_rfl, one_pos⟩
      syst := fun _ => ⟨le_rfl, one_pos⟩ }
  have v : ∀ k : ℝ, ll145 (pt fun _ => k) = if 2 < k then ninf else fin 0 := fun k => by
    simp [ll145, pt]
  obtain ⟨s, its, hr, -⟩ := flat_warm_run (its := []) (ll := ll145) ⟨hll, rfl, rfl⟩ (userOf ll145 fun _ => fin 0) (configuredOf _ _) draws hrel
    (.fresh (freshOf _ _)) rfl (by simp) (by
      change Supported _ _ (rnd.prior (envOf ll145 fun _ => fin 0).nPrior)
      rw [hprior]
      intro i hi
      have hi2 : i < 2 := by simpa [envOf, env] using hi
      interval_cases i
      · exact ⟨pt fun _ => 0, by simp [envOf, env], by rw [v]; norm_num [F.isinf]⟩
      · exact ⟨pt fun _ => 2, by simp [envOf, env], by rw [v]; norm_num [F.isinf]⟩)
    (by simp [env, envOf, start]) (args 0) (by simp [args]) (by simp [args, env, envOf]) 0 0
  obtain ⟨h1, -, h3⟩ := C145_whole_run (userOf ll145 fun _ => fin 0) (configuredOf _ _) hll (.fresh (freshOf _ _)) draws hr (by simp [args])
  refine ⟨s, draws, hprior, hr, h1, ?_⟩
  rw [h3 prior145 trivial]
  have hmem : ∀ k : ℝ, (pt fun _ => k : Pt 2) ∈ {x | ll145 x = fin 0} ↔ k ≤ 2 := fun k => by
    rw [Set.mem_ofPred_eq, v]
    split_ifs with h
    · simpa using h
    · simpa using h
  rw [prior145, Measure.finsetSum_apply]
  have hi : ∀ k : ℝ, {x | ll145 x = fin 0}.indicator (1 : Pt 2 → ℝ≥0∞) (pt fun _ => k) = if k ≤ 2 then 1 else 0 := fun k => by
    split_ifs with h
    · rw [Set.indicator_of_mem ((hmem k).2 h)]; rfl
    · rw [Set.indicator_of_notMem fun hk => h ((hmem k).1 hk)]
  simp only [Measure.smul_apply, Measure.dirac_apply, Fin.sum_univ_four, hi]
  norm_num
  rw [← two_mul, ← add_one_mul, ENNReal.div_eq_inv_mul, mul_comm]
  norm_num

/-- A batch of three samples, one of them where the likelihood is zero: the mean of the stored likelihoods is 3/2 times too large. -/
example (r0 r1 r2 : Row 2 (List Unit)) (h0 : r0.logl = fin 0) (h1 : r1.logl = ninf) (h2 : r2.logl = fin (-1)) :
    ∃ b : Batch 2 Unit, BatchRows true b [r0, r1, r2] ∧ (∃ l ∈ b.logl, ¬ IsInf l) ∧ b.logl.length = 3 ∧ (nonzero b.logl).length = 2 :=
  ⟨⟨[r0, r1, r2].map (·.x), [r0, r1, r2].map (·.u), [r0, r1, r2].map (·.logdetj), [r0, r1, r2].map (·.logp), [r0, r1, r2].map (·.logl),
    some ([r0, r1, r2].map (·.blob))⟩, ⟨rfl, rfl, rfl, rfl, rfl, rfl⟩, ⟨fin 0, by simp [h0], by simp [IsInf]⟩, rfl,
    by simp [nonzero, h0, h1, h2, F.isinf]⟩

end Poco.Demo
