import Verif.Props.NoNan

/-! C121: what becomes of a log-likelihood of +inf. -/

namespace Poco
open F Spec

variable {d : ℕ} {B Φ : Type}

/-- One +inf among the log-likelihoods, in a history that has an iteration at temperature 0, makes everything NaN. -/
theorem inf_poisons (past : Cols d B List) (β : F) (hinf : pinf ∈ past.logl.flatten) (h0 : fin 0 ∈ past.beta) (logw : List F) (z : F)
    (h : computeLogwLogz past β = .ok (logw, z)) : z = nan ∧ ∀ w ∈ logw, w = nan := by
  unfold computeLogwLogz at h
  split at h
  · cases h
  split at h
  · cases h
  rename_i hlen
  split at h
  · cases h
  simp only [if_true, Except.ok.injEq, Prod.mk.injEq] at h
  have hmix : mixDenom past.beta past.logz pinf = nan := by
    unfold mixDenom
    obtain ⟨i, hi, he⟩ := List.mem_iff_getElem.mp h0
    have hi' : i < past.logz.length := by omega
    rw [lse_nan]
    · simp
    · rw [List.mem_map]
      refine ⟨(fin 0, past.logz[i]), ?_, ?_⟩
      · rw [List.mem_iff_getElem]
        exact ⟨i, by simp; omega, by simp [he]⟩
      · change pinf * fin 0 - past.logz[i] = nan
        rw [show pinf * fin 0 = nan from if_pos rfl]; simp
  have hl : lse (past.logl.flatten.map fun l => l * β - mixDenom past.beta past.logz l) = nan := by
    apply lse_nan
    rw [List.mem_map]
    exact ⟨pinf, hinf, by rw [hmix]; simp⟩
  rw [hl] at h
  obtain ⟨h1, h2⟩ := h
  constructor
  · rw [← h2]; simp
  · rw [← h1]
    intro w hw
    obtain ⟨x, -, rfl⟩ := List.mem_map.mp hw
    simp

theorem essAt_inf {past : Cols d (List B) List} {m : Metric} {β v : F} (hinf : pinf ∈ past.logl.flatten) (h0 : fin 0 ∈ past.beta)
    (h : essAt past m β = .ok v) : v = nan := by
  unfold essAt weightsAt at h
  obtain ⟨w, h1, h⟩ := bind_ok h
  obtain ⟨⟨lw, z⟩, h2, h1⟩ := bind_ok h1
  obtain ⟨mx, h3, h1⟩ := bind_ok h1
  simp only [pure, Except.pure, Except.ok.injEq] at h h1
  obtain ⟨-, k⟩ := inf_poisons past β hinf h0 lw z h2
  subst h1 h
  apply sizeOf_nan
  · cases lw with
    | nil => cases h3
    | cons a l => simp
  · intro v hv
    obtain ⟨a, ha, rfl⟩ := List.mem_map.mp hv
    rw [k a ha]; simp

theorem computeLogwLogz_inf {past : Cols d (List B) List} {n : ℕ} (h : Shaped past n) (hinf : pinf ∈ past.logl.flatten) (h0 : fin 0 ∈ past.beta)
    (β : F) : ∃ lw, computeLogwLogz past β = .ok (lw, nan) ∧ lw ≠ [] := by
  have hne : past.logl ≠ [] := by intro h'; rw [h'] at hinf; simp at hinf
  have hok : ∃ p, computeLogwLogz past β = .ok p ∧ p.1 ≠ [] := by
    unfold computeLogwLogz
    rw [if_neg, if_neg (by have := h.1; omega), if_neg hne]
    · refine ⟨_, rfl, ?_⟩
      have : past.logl.flatten ≠ [] := by intro h'; rw [h'] at hinf; simp at hinf
      simpa using this
    · obtain ⟨a, l, e⟩ := List.exists_cons_of_ne_nil hne
      have h2 := h.2
      rw [e] at h2 ⊢
      simp only [List.any_eq_true, decide_eq_true_eq, not_exists, not_and, not_not, List.headD_cons]
      intro row hrow
      simp [h2 row hrow, h2 a (by simp)]
  obtain ⟨⟨lw, z⟩, hp, hp2⟩ := hok
  obtain ⟨k1, -⟩ := inf_poisons past β hinf h0 lw z hp
  exact ⟨lw, by rw [hp, k1], hp2⟩

theorem essAt_inf_ok {past : Cols d (List B) List} {n : ℕ} (h : Shaped past n) (hinf : pinf ∈ past.logl.flatten) (h0 : fin 0 ∈ past.beta)
    (m : Metric) (β : F) : essAt past m β = .ok nan := by
  obtain ⟨lw, h1, h2⟩ := computeLogwLogz_inf h hinf h0 β
  have hok : ∃ v, essAt past m β = .ok v := by
    obtain ⟨a, l, rfl⟩ := List.exists_cons_of_ne_nil h2
    unfold essAt weightsAt
    simp [h1, F.max, bind, Except.bind, pure, Except.pure]
  obtain ⟨v, hv⟩ := hok
  rw [hv, essAt_inf hinf h0 hv]

/-- `trim_weights` on weights that are all NaN runs off the grid. -/
theorem trimLoop_nan {α : Type*} (samples : List α) (w : List F) (hw : w ≠ []) (hn : ∀ v ∈ w, v = nan) (T ess : F) (hT : T = nan) (grid : List ℝ) (i : ℤ) :
    trimLoop samples w T ess grid i = .error .indexError := by
  generalize hk : (i + grid.length + 1).toNat = k
  induction k using Nat.strong_induction_on generalizing i with
  | _ k ih =>
    unfold trimLoop
    split
    · rfl
    · rename_i p hp
      have hperc : percentile w p = .ok nan := by
        unfold percentile
        rw [if_pos]
        obtain ⟨v, hv⟩ := List.exists_mem_of_ne_nil _ hw
        rw [List.any_eq_true]
        exact ⟨v, hv, by rw [hn v hv]; rfl⟩
      rw [hperc]
      dsimp only
      have h0 : 0 ≤ i + grid.length := by
        by_contra hc
        unfold pyGet? at hp
        rw [if_neg (by omega), if_neg (by omega)] at hp
        cases hp
      have hno : ¬ (ess ≤ invSumSq (normalize (maskSelect (w.map fun x => decide (nan ≤ x)) w)) / T) := by
        rw [hT, div_nan]
        exact not_le_nan _
      rw [if_neg hno]
      exact ih _ (by omega) (i - 1) rfl

theorem trimWeights_nan {α : Type*} (samples : List α) (w : List F) (hw : w ≠ []) (hn : ∀ v ∈ w, v = nan) (ess : F) (bins : ℕ) :
    trimWeights samples w ess bins = .error .indexError := by
  have h1 : normalize w ≠ [] := by unfold normalize; simpa using hw
  have h2 : ∀ v ∈ normalize w, v = nan := by
    intro v hv
    unfold normalize at hv
    obtain ⟨a, ha, rfl⟩ := List.mem_map.mp hv
    rw [hn a ha]; simp
  have h3 : invSumSq (normalize w) = nan := by
    unfold invSumSq
    rw [sum_all_nan]
    · simp
    · simpa using h1
    · intro v hv
      obtain ⟨a, ha, rfl⟩ := List.mem_map.mp hv
      rw [h2 a ha]; rfl
  unfold trimWeights
  dsimp only
  rw [trimLoop_nan samples _ h1 h2 _ ess h3]
  rfl

/-- Systematic resampling with NaN weights: the first particle, always. -/
theorem systematic_nan (n : ℕ) (w : List F) (hw : w ≠ []) (hn : ∀ v ∈ w, v = nan) (u : ℝ) :
    systematicResample n w u = .ok (List.replicate n 0) := by
  have hsw : sysWeights w = w := by
    unfold sysWeights
    rw [sum_all_nan hw hn, nan_sub]
    exact if_neg (by intro h; exact not_lt_nan _ h)
  have hloop : ∀ ps : List F, sysLoop w ps 0 nan = .ok (List.replicate ps.length 0) := by
    intro ps
    induction ps with
    | nil => rfl
    | cons p ps ih =>
      unfold sysLoop
      have : sysAdvance w p 0 nan = .ok (0, nan) := by
        unfold sysAdvance
        exact if_neg (by intro h; exact not_nan_lt _ h)
      rw [this]
      dsimp only
      rw [ih]
      rfl
  unfold systematicResample
  dsimp only
  rw [hsw]
  cases w with
  | nil => exact absurd rfl hw
  | cons v w =>
    rw [List.getElem?_cons_zero]
    dsimp only
    rw [show v = nan from hn v (by simp)] at hloop ⊢
    rw [hloop]
    simp [sysPositions]

section
variable {e : SamplerEnv d B Φ} {ll lp : Pt d → F} {bb : Pt d → List B} {hb : Bool} {s s' : Sampler d B Φ} {rnd : Rnd d Φ}
  {its : List (Iter d (List B))}

/-- There is an iteration at temperature 0 as soon as there is one. -/
def ZeroFirst (s : Sampler d B Φ) : Prop := s.particles.past.beta ≠ [] → fin 0 ∈ s.particles.past.beta

theorem zeroFirst_move (hu : UserFns e ll lp bb hb) (hc : Configured e) (hd : Draws s.scaler.low s.scaler.high rnd)
    (h : Inv e ll lp bb hb s its) (hq : ZeroFirst s) (hm : Move e rnd s s') : ZeroFirst s' := by
  cases hm with
  | init a hm =>
    rcases runInit_ok hm with ⟨-, rfl⟩ | ⟨-, sc, -, rfl⟩ <;> exact hq
  | warm i hw hi hm =>
    obtain ⟨more, k1, -⟩ := h.move hu hc hd (.warm i hw hi hm)
    have hw' : s'.warmup = true := (warmupStep_warmup hm).1.trans hw
    intro hne
    rw [k1.past] at hne ⊢
    obtain ⟨b, hb⟩ := List.exists_mem_of_ne_nil _ hne
    obtain ⟨it, hit, hbe⟩ := List.mem_map.mp hb
    exact List.mem_map.mpr ⟨it, hit, k1.warm hw' it hit⟩
  | endWarm hw => exact hq
  | smc fuel hw hm =>
    intro _
    obtain ⟨c, c3, r, nEff, fl, fu, ug, tg, h0, -, -, -, rfl⟩ := smcStep_shape hm
    have hlast : its.getLast? = some c.it := by rw [← h.cur, h0]; rfl
    have hne : s.particles.past.beta ≠ [] := by
      rw [h.past]
      cases its with
      | nil => cases hlast
      | cons _ _ => simp [columns]
    have := hq hne
    dsimp only
    rw [update_columns _ its h.past]
    rw [h.past] at this
    obtain ⟨it, hit, he⟩ := List.mem_map.mp this
    exact List.mem_map.mpr ⟨it, List.mem_append_left _ hit, he⟩
  | evidence hw hm =>
    have : s'.particles = s.particles := by
      rcases finalEvidence_ok hm with ⟨-, -, h⟩ | ⟨-, lw, z, -, rfl⟩
      · obtain ⟨inv, ll', bl, hbl, h1, h2, rfl⟩ := computeEvidence_ok h
        rfl
      · rfl
    unfold ZeroFirst
    rw [this]; exact hq

theorem zeroFirst_moves (hu : UserFns e ll lp bb hb) (hc : Configured e) (hd : Draws s.scaler.low s.scaler.high rnd)
    (h : Inv e ll lp bb hb s its) (hq : ZeroFirst s) (hm : Moves e rnd s s') : ZeroFirst s' := by
  induction hm with
  | refl => exact hq
  | tail hm hm1 ih =>
    obtain ⟨more, k1, k2, k3⟩ := h.moves hu hc hd hm
    exact zeroFirst_move hu hc (by rw [k2, k3]; exact hd) k1 ih hm1

theorem Spec.Session.zeroFirst (hu : UserFns e ll lp bb hb) (hc : Configured e) (h : Session e hb s) : ZeroFirst s := by
  induction h with
  | fresh h => intro hn; rw [h.particles] at hn; simp [Particles.init] at hn
  | ran rnd fuel n a hs hd hr ih =>
    obtain ⟨its, hi⟩ := hs.inv hu hc
    exact zeroFirst_moves hu hc hd hi ih ((Along.run fuel n a _).to_end _ hr).1
  | loaded rnd fuel n a sv hs hd hr ih =>
    obtain ⟨its, hi⟩ := hs.inv hu hc
    exact zeroFirst_moves hu hc hd hi ih ((Along.run fuel n a _).from_start sv hr)

theorem zero_of_inf (hu : UserFns e ll lp bb hb) (hc : Configured e) (h : Session e hb s) (hinf : pinf ∈ s.particles.past.logl.flatten) :
    fin 0 ∈ s.particles.past.beta := by
  obtain ⟨its, hi⟩ := h.inv hu hc
  apply h.zeroFirst hu hc
  rw [hi.past] at hinf ⊢
  cases its with
  | nil => simp [columns] at hinf
  | cons _ _ => simp [columns]

/-- What `posterior` collects from such a history. -/
theorem postCollect_inf (pa : PostArgs) (p : Post d B) (hinf : pinf ∈ s.particles.past.logl.flatten) (h0 : fin 0 ∈ s.particles.past.beta)
    (hp : postCollect pa s = .ok p) : p.weights ≠ [] ∧ (∀ w ∈ p.weights, w = nan) ∧ (∀ w ∈ p.logw, w = nan) ∧
      p.samples = s.particles.past.x.flatten := by
  unfold postCollect at hp
  split at hp
  · cases hp
  obtain ⟨x, hx, hp⟩ := bind_ok hp
  obtain ⟨l, -, hp⟩ := bind_ok hp
  obtain ⟨q, -, hp⟩ := bind_ok hp
  obtain ⟨bl, -, hp⟩ := bind_ok hp
  obtain ⟨⟨lw, z⟩, hlw, hp⟩ := bind_ok hp
  simp only [pure, Except.pure, Except.ok.injEq] at hp
  subst hp
  obtain ⟨-, k⟩ := inf_poisons _ _ hinf h0 lw z hlw
  have hne : lw ≠ [] := by
    intro hcon
    have := congrArg List.length (show lw = [] from hcon)
    unfold computeLogwLogz at hlw
    split at hlw
    · cases hlw
    split at hlw
    · cases hlw
    split at hlw
    · cases hlw
    simp only [if_true, Except.ok.injEq, Prod.mk.injEq] at hlw
    rw [← hlw.1] at this
    simp only [List.length_map, List.length_nil] at this
    rw [List.length_eq_zero_iff] at this
    rw [this] at hinf
    cases hinf
  refine ⟨by simpa using hne, fun w hw => ?_, k, ?_⟩
  · obtain ⟨v, hv, rfl⟩ := List.mem_map.mp hw
    rw [k v hv]; rfl
  · unfold getFlat at hx
    split at hx
    · cases hx
    · simpa using hx.symm

/-- **C121**, what is left of it: if a run returns with a log-likelihood of +inf in its history, no number computed from the weights looks like a
result: the log-evidence from the weights is NaN, `posterior` with trimming (the default) raises, without trimming and resampling it returns NaN weights. -/
theorem C121_visible_partial (hu : UserFns e ll lp bb hb) (hc : Configured e) (h : Session e hb s)
    (hd : Draws s.scaler.low s.scaler.high rnd) (fuel n : ℕ) (a : RunArgs) (hr : (run e rnd fuel n a s).2 = .ok s')
    (hinf : ∃ row ∈ s'.particles.past.logl, pinf ∈ row) :
    (a.nEvidence = 0 ∨ e.preconditioned = false → evidence s' = (some nan, none)) ∧
    (∀ us u pa out, pa.trim = true → posterior e us u pa s' ≠ .ok out) ∧
    (∀ us u pa out, pa.trim = false → pa.resample = false → posterior e us u pa s' = .ok out →
      ∃ ws, out.weights = some ws ∧ ∀ w ∈ ws, w = nan) := by
  obtain ⟨row, hrow, hpr⟩ := hinf
  have hinf : pinf ∈ s'.particles.past.logl.flatten := List.mem_flatten.mpr ⟨row, hrow, hpr⟩
  have hs' : Session e hb s' := .ran rnd fuel n a h hd hr
  have h0 := zero_of_inf hu hc hs' hinf
  refine ⟨fun hne => ?_, fun us u pa out ht hp => ?_, fun us u pa out ht hrs hp => ?_⟩
  · obtain ⟨s1, s2, s3, h1, h2, h3, h4⟩ := run_ok hr
    have hev : s3.nEvidence = a.nEvidence := (run_args h1 h2 h3).2
    rcases finalEvidence_ok h4 with ⟨q1, q2, -⟩ | ⟨-, lw, z, hz, rfl⟩
    · rcases hne with hne | hne
      · omega
      · rw [hne] at q2; cases q2
    · obtain ⟨rfl, -⟩ := inf_poisons _ _ hinf h0 lw z hz
      rfl
  · unfold posterior at hp
    obtain ⟨p, h1, hp⟩ := bind_ok hp
    obtain ⟨q, h2, hp⟩ := bind_ok hp
    obtain ⟨k1, k2, -⟩ := postCollect_inf pa p hinf h0 h1
    unfold postTrim at h2
    rw [if_pos ht, trimWeights_nan _ _ k1 k2] at h2
    cases h2
  · unfold posterior at hp
    obtain ⟨p, h1, hp⟩ := bind_ok hp
    obtain ⟨q, h2, hp⟩ := bind_ok hp
    obtain ⟨k1, k2, k3, -⟩ := postCollect_inf pa p hinf h0 h1
    unfold postTrim at h2
    rw [if_neg (by simp [ht])] at h2
    simp only [Except.ok.injEq] at h2
    subst h2
    unfold postReturn at hp
    rw [if_neg (by simp [hrs])] at hp
    simp only [Except.ok.injEq] at hp
    subst hp
    refine ⟨_, rfl, ?_⟩
    split
    · exact k3
    · exact k2

theorem gather_replicate {α : Type} (a : α) (l : List α) (n : ℕ) : gather (a :: l) (List.replicate n 0) = .ok (List.replicate n a) := by
  unfold gather
  induction n with
  | zero => rfl
  | succ n ih =>
    rw [List.replicate_succ, List.mapM_cons, ih]
    rfl

/-- C121, how it can be silent: with systematic resampling and without trimming, `posterior` returns equally weighted samples, as many as there are
particles in the history, and all are copies of one particle, the very first of the history. -/
theorem C121_first_particle (hu : UserFns e ll lp bb hb) (hc : Configured e) (h : Session e hb s) (hsy : e.resample = .syst)
    (hinf : ∃ row ∈ s.particles.past.logl, pinf ∈ row) (us : ℕ → ℝ) (u : ℝ) (pa : PostArgs) (ht : pa.trim = false) (hrs : pa.resample = true)
    (hnb : pa.returnBlobs = false) :
    ∃ x0 out, s.particles.past.x.flatten.head? = some x0 ∧ posterior e us u pa s = .ok out ∧
      out.samples = List.replicate s.particles.past.x.flatten.length x0 := by
  obtain ⟨row, hrow, hpr⟩ := hinf
  have hinf : pinf ∈ s.particles.past.logl.flatten := List.mem_flatten.mpr ⟨row, hrow, hpr⟩
  have h0 := zero_of_inf hu hc h hinf
  obtain ⟨its, hi⟩ := h.inv hu hc
  have hne : its ≠ [] := by
    rintro rfl
    rw [hi.past] at hinf
    simp [columns] at hinf
  obtain ⟨all, -, f2, -, f4, f5, -, fl, -⟩ := flat_rows its hne hi.rows
  have g : ∀ {α : Type} {l : List (List α)} {r : List α}, getFlat l = .ok r → l.flatten = r := by
    intro α l r h
    unfold getFlat at h
    split_ifs at h
    simpa using h
  have hsh : Shaped s.particles.past e.nActive := by
    rw [hi.past]
    refine ⟨by simp [columns], fun row hrow => ?_⟩
    obtain ⟨it', hit', rfl⟩ := List.mem_map.mp hrow
    obtain ⟨rows, r1, r2, -⟩ := hi.rows it' hit'
    rw [r2.logl, List.length_map, r1]
  obtain ⟨lw, e1, e2⟩ := computeLogwLogz_inf hsh hinf h0 (fin 1)
  have hlw : lw.length = all.length := by
    unfold computeLogwLogz at e1
    split at e1
    · cases e1
    split at e1
    · cases e1
    split at e1
    · cases e1
    simp only [if_true, Except.ok.injEq, Prod.mk.injEq] at e1
    rw [← e1.1, List.length_map, List.length_map, hi.past, g f4, List.length_map]
  have hcol : postCollect pa s = .ok ⟨all.map (·.x), lw.map exp, lw, all.map (·.logl), all.map (·.logp), none⟩ := by
    unfold postCollect
    rw [if_neg (by simp [hnb])]
    have hb : postBlobs pa.returnBlobs s.particles.past = .ok none := by
      unfold postBlobs; rw [hnb]; rfl
    simp only [hi.past, bind, Except.bind, pure, Except.pure] at f2 f4 f5 e1 hb ⊢
    simp only [f2, f4, f5, hb, e1]
  obtain ⟨k1, k2, -, k4⟩ := postCollect_inf pa _ hinf h0 hcol
  simp only at k1 k2 k4
  rw [← k4]
  cases all with
  | nil => simp at hlw; exact absurd hlw e2
  | cons r rest =>
    refine ⟨r.x, ⟨List.replicate (r :: rest).length r.x, none, List.replicate (r :: rest).length r.logl, List.replicate (r :: rest).length r.logp, none⟩,
      rfl, ?_, by simp⟩
    unfold posterior
    simp only [hcol, bind, Except.bind]
    have htr : ∀ q : Post d B, postTrim pa q = .ok q := fun q => by
      unfold postTrim
      rw [if_neg (by simp [ht])]
    simp only [htr]
    unfold postReturn
    rw [if_pos hrs]
    unfold postIdx
    rw [hsy]
    simp only [systematic_nan _ _ k1 k2, bind, Except.bind, pure, Except.pure, List.map_cons, gather_replicate, gatherBlobs, List.length_map, hlw]

end

end Poco
