import Verif.Props.DemoPosterior

/-! C96: the error bar of the evidence. -/

namespace Poco.Spec

/-- The average of `W` over the draws of one bootstrap replicate; `pick k` is the index of its `k`-th draw. -/
noncomputable def bootMean (W : List ℝ) (pick : ℕ → ℕ) : ℝ :=
  ((List.range W.length).map fun k => W.getD (pick k) 0).sum / W.length

/-- The standard deviation of the values of a list around their mean. -/
noncomputable def popStd (l : List ℝ) : ℝ := Real.sqrt ((l.map fun x => (x - l.sum / l.length) ^ 2).sum / l.length)

/-- Replicate `r` draws nothing but zeros. -/
def AllZero (W : List ℝ) (pick : ℕ → ℕ) : Prop := ∀ k < W.length, W.getD (pick k) 0 = 0

end Poco.Spec

namespace Poco
open F Spec

theorem getD_nonneg {W : List ℝ} (hW : ∀ w ∈ W, 0 ≤ w) (i : ℕ) : 0 ≤ W.getD i 0 := by
  rw [List.getD_eq_getElem?_getD]
  cases h : W[i]? with
  | none => simp
  | some w => exact hW w (List.mem_of_getElem? h)

/-- One replicate. -/
theorem replicate_value (W : List ℝ) (hne : W ≠ []) (hW : ∀ w ∈ W, 0 ≤ w) (pick : ℕ → ℕ) (hp : ∀ k < W.length, pick k < W.length) :
    lse ((List.range (W.map logOf).length).map fun k => (W.map logOf).getD (pick k % (W.map logOf).length) nan) -
      log (F.ofNat (W.map logOf).length) = logOf (bootMean W pick) := by
  have hlen : 0 < W.length := List.length_pos_iff.mpr hne
  have hr : (0 : ℝ) < W.length := by exact_mod_cast hlen
  have e1 : ((List.range (W.map logOf).length).map fun k => (W.map logOf).getD (pick k % (W.map logOf).length) nan) =
      ((List.range W.length).map fun k => W.getD (pick k) 0).map logOf := by
    rw [List.map_map, List.length_map]
    apply List.map_congr_left
    intro k hk
    have h := hp k (List.mem_range.mp hk)
    rw [Nat.mod_eq_of_lt h]
    simp [List.getD_eq_getElem?_getD, List.getElem?_eq_getElem h]
  rw [e1, lse_logOf _ (by
    intro r hr'
    obtain ⟨k, -, rfl⟩ := List.mem_map.mp hr'
    exact getD_nonneg hW _)]
  rw [List.length_map]
  have : log (F.ofNat W.length) = fin (Real.log W.length) := log_fin _ hr
  rw [this]
  unfold bootMean logOf
  by_cases h0 : ((List.range W.length).map fun k => W.getD (pick k) 0).sum = 0
  · rw [if_pos h0, h0, zero_div, if_pos rfl]
    rfl
  · rw [if_neg h0, if_neg (div_ne_zero h0 hr.ne'), fin_sub, Real.log_div h0 hr.ne']

theorem allZero_iff (W : List ℝ) (hne : W ≠ []) (hW : ∀ w ∈ W, 0 ≤ w) (pick : ℕ → ℕ) : bootMean W pick = 0 ↔ AllZero W pick := by
  have hlen : 0 < W.length := List.length_pos_iff.mpr hne
  have hr : (0 : ℝ) < W.length := by exact_mod_cast hlen
  unfold bootMean AllZero
  rw [div_eq_zero_iff]
  constructor
  · rintro (h | h)
    · intro k hk
      have h0 : ∀ x ∈ (List.range W.length).map fun k => W.getD (pick k) 0, 0 ≤ x := by
        intro x hx
        obtain ⟨k, -, rfl⟩ := List.mem_map.mp hx
        exact getD_nonneg hW _
      have h1 : W.getD (pick k) 0 ∈ (List.range W.length).map fun k => W.getD (pick k) 0 :=
        List.mem_map.mpr ⟨k, List.mem_range.mpr hk, rfl⟩
      have h2 := List.single_le_sum h0 _ h1
      rw [h] at h2
      exact le_antisymm h2 (h0 _ h1)
    · exact absurd h hr.ne'
  · intro h
    left
    apply List.sum_eq_zero
    intro x hx
    obtain ⟨k, hk, rfl⟩ := List.mem_map.mp hx
    exact h k (List.mem_range.mp hk)

theorem fsum_ninf {l : List F} (h : ninf ∈ l) (hp : ∀ x ∈ l, x = ninf ∨ ∃ r, x = fin r) : F.sum l = ninf := by
  have key : ∀ l : List F, (∀ x ∈ l, x = ninf ∨ ∃ r, x = fin r) → F.sum l = ninf ∨ ∃ r, F.sum l = fin r := by
    intro l
    induction l with
    | nil => intro _; exact .inr ⟨0, rfl⟩
    | cons a l ih =>
      intro hl
      rw [sum_cons]
      rcases hl a (by simp) with rfl | ⟨r, rfl⟩ <;> rcases ih (fun x hx => hl x (by simp [hx])) with h | ⟨q, h⟩ <;> rw [h]
      · exact .inl rfl
      · exact .inl rfl
      · exact .inl rfl
      · exact .inr ⟨_, rfl⟩
  induction l with
  | nil => cases h
  | cons a l ih =>
    rw [sum_cons]
    rcases List.mem_cons.mp h with rfl | h
    · rcases key l (fun x hx => hp x (by simp [hx])) with h | ⟨q, h⟩ <;> rw [h] <;> rfl
    · rw [ih h fun x hx => hp x (by simp [hx])]
      rcases hp a (by simp) with rfl | ⟨r, rfl⟩ <;> rfl

theorem std_ninf {l : List F} (h : ninf ∈ l) (hp : ∀ x ∈ l, x = ninf ∨ ∃ r, x = fin r) : F.std l = nan := by
  have hpos : (0 : ℝ) < l.length := by exact_mod_cast List.length_pos_of_mem h
  have hm : mean l = ninf := by
    unfold mean
    rw [fsum_ninf h hp]
    change (if (l.length : ℝ) < 0 then pinf else ninf) = ninf
    rw [if_neg hpos.le.not_gt]
  unfold F.std
  simp only [hm]
  have : nan ∈ l.map fun x => sq (abs (x - ninf)) := List.mem_map.mpr ⟨ninf, h, rfl⟩
  unfold mean
  rw [sum_nan this]
  rfl

/-- The bootstrap error of draws with weights `W` in `R` replicates. -/
theorem bootstrapErr_value (W : List ℝ) (hne : W ≠ []) (hW : ∀ w ∈ W, 0 ≤ w) (n : ℕ) (boot : ℕ → ℕ → ℕ)
    (hb : ∀ r, ∀ k < W.length, boot r k < W.length) :
    ((∀ r < Max.max n 1000, ¬ AllZero W (boot r)) → bootstrapErr (W.map logOf) n boot =
      fin (popStd ((List.range (Max.max n 1000)).map fun r => Real.log (bootMean W (boot r))))) ∧
    ((∃ r < Max.max n 1000, AllZero W (boot r)) → bootstrapErr (W.map logOf) n boot = nan) := by
  have e : bootstrapErr (W.map logOf) n boot = F.std ((List.range (Max.max n 1000)).map fun r => logOf (bootMean W (boot r))) := by
    unfold bootstrapErr
    congr 1
    apply List.map_congr_left
    intro r _
    exact replicate_value W hne hW (boot r) (hb r)
  rw [e]
  constructor
  · intro h
    have : ((List.range (Max.max n 1000)).map fun r => logOf (bootMean W (boot r))) =
        ((List.range (Max.max n 1000)).map fun r => Real.log (bootMean W (boot r))).map fin := by
      rw [List.map_map]
      apply List.map_congr_left
      intro r hr
      have h0 := h r (List.mem_range.mp hr)
      rw [← allZero_iff W hne hW] at h0
      simp [logOf, h0]
    rw [this, std_fin _ (by
      intro h0
      have := congrArg List.length h0
      simp at this)]
    rfl
  · rintro ⟨r, hr, h0⟩
    apply std_ninf
    · refine List.mem_map.mpr ⟨r, List.mem_range.mpr hr, ?_⟩
      rw [(allZero_iff W hne hW _).mpr h0]
      simp [logOf]
    · intro x hx
      obtain ⟨r, -, rfl⟩ := List.mem_map.mp hx
      unfold logOf
      split_ifs
      · exact .inl rfl
      · exact .inr ⟨_, rfl⟩

theorem popStd_le {l : List ℝ} (hne : l ≠ []) {a b : ℝ} (h : ∀ x ∈ l, a ≤ x ∧ x ≤ b) : popStd l ≤ b - a := by
  have hr : (0 : ℝ) < l.length := by exact_mod_cast List.length_pos_iff.mpr hne
  obtain ⟨x0, hx0⟩ := List.exists_mem_of_ne_nil _ hne
  have hab : a ≤ b := (h x0 hx0).1.trans (h x0 hx0).2
  have s1 : l.length • a ≤ l.sum := List.card_nsmul_le_sum _ _ fun x hx => (h x hx).1
  have s2 : l.sum ≤ l.length • b := List.sum_le_card_nsmul _ _ fun x hx => (h x hx).2
  rw [nsmul_eq_mul] at s1 s2
  have m1 : a ≤ l.sum / l.length := by rw [le_div_iff₀ hr]; linarith
  have m2 : l.sum / l.length ≤ b := by rw [div_le_iff₀ hr]; linarith
  unfold popStd
  rw [Real.sqrt_le_left (by linarith), div_le_iff₀ hr]
  have := List.sum_le_card_nsmul (l.map fun x => (x - l.sum / l.length) ^ 2) ((b - a) ^ 2) (by
    intro y hy
    obtain ⟨x, hx, rfl⟩ := List.mem_map.mp hy
    obtain ⟨h1, h2⟩ := h x hx
    exact sq_le_sq' (by linarith) (by linarith))
  rw [nsmul_eq_mul, List.length_map] at this
  linarith

theorem bootMean_mem {W : List ℝ} (hne : W ≠ []) {lo hi : ℝ} (h : ∀ w ∈ W, lo ≤ w ∧ w ≤ hi) {pick : ℕ → ℕ}
    (hp : ∀ k < W.length, pick k < W.length) : lo ≤ bootMean W pick ∧ bootMean W pick ≤ hi := by
  have hr : (0 : ℝ) < W.length := by exact_mod_cast List.length_pos_iff.mpr hne
  have hm : ∀ y ∈ (List.range W.length).map fun k => W.getD (pick k) 0, y ∈ W := by
    intro y hy
    obtain ⟨k, hk, rfl⟩ := List.mem_map.mp hy
    have := hp k (List.mem_range.mp hk)
    rw [List.getD_eq_getElem?_getD, List.getElem?_eq_getElem this]
    exact List.getElem_mem _
  have s1 := List.card_nsmul_le_sum _ lo fun y hy => (h y (hm y hy)).1
  have s2 := List.sum_le_card_nsmul _ hi fun y hy => (h y (hm y hy)).2
  rw [nsmul_eq_mul, List.length_map, List.length_range] at s1 s2
  unfold bootMean
  rw [le_div_iff₀ hr, div_le_iff₀ hr]
  constructor <;> linarith

section
variable {d : ℕ} {B Φ : Type} {e : SamplerEnv d B Φ} {ll lp : Pt d → F} {bb : Pt d → List B} {hb : Bool} {s : Sampler d B Φ}

theorem isWeight_nonneg (X : (Fin d → ℝ) → Pt d) (D : (Fin d → ℝ) → ℝ) (q : (Fin d → ℝ) × ℝ) : 0 ≤ isWeight ll lp X D q := by
  unfold isWeight
  have hu : ∀ x : F, 0 ≤ unlog x := by
    intro x
    unfold unlog
    split <;> positivity
  have := hu (ll (X q.1))
  have := hu (lp (X q.1))
  positivity

/-- **C96 (what is computed).** The error bar reported with the evidence is the standard deviation, over `max n 1000` replicates, of
the logarithm of the average weight of as many draws, taken with replacement, as there are draws in the support of the prior; it is
NaN as soon as one replicate draws zero weights only. -/
theorem C96_error (hu : UserFns e ll lp bb hb) (hp : ProperLike ll) (hp' : ProperLike lp) (hc : Configured e) (hs : Session e hb s)
    {rnd : Rnd d Φ} (hd : Draws s.scaler.low s.scaler.high rnd) {fuel n : ℕ} {a : RunArgs} {s' : Sampler d B Φ}
    (hr : (run e rnd fuel n a s).2 = .ok s') (hpre : e.preconditioned = true) (hn : 0 < a.nEvidence)
    (qs : List ((Fin d → ℝ) × ℝ)) (hq : rnd.flowSample s'.t s'.flow a.nEvidence = qs.map fun q => (pt q.1, fin q.2)) :
    ∃ (X : (Fin d → ℝ) → Pt d) (D : (Fin d → ℝ) → ℝ), (∀ θ, s'.scaler.inverseRow (pt θ) = .ok (X θ, fin (D θ))) ∧
      ∀ W, W = (qs.filter (inSupport lp X)).map (isWeight ll lp X D) → W ≠ [] →
        (∀ r, ∀ k < W.length, rnd.boot s'.t r k < W.length) →
        ((∀ r < Max.max a.nEvidence 1000, ¬ AllZero W (rnd.boot s'.t r)) → (evidence s').2 = some (fin (popStd
          ((List.range (Max.max a.nEvidence 1000)).map fun r => Real.log (bootMean W (rnd.boot s'.t r)))))) ∧
        ((∃ r < Max.max a.nEvidence 1000, AllZero W (rnd.boot s'.t r)) → (evidence s').2 = some nan) := by
  obtain ⟨X, D, hXD, -, he⟩ := evidence_weights hu hp hp' hc hs hd hr hpre hn qs hq
  refine ⟨X, D, hXD, ?_⟩
  rintro W rfl hne hb
  have hW : ∀ w ∈ (qs.filter (inSupport lp X)).map (isWeight ll lp X D), 0 ≤ w := by
    intro w hw
    obtain ⟨q, -, rfl⟩ := List.mem_map.mp hw
    exact isWeight_nonneg X D q
  have hl : (qs.filter (inSupport lp X)).map (fun q => logOf (isWeight ll lp X D q)) =
      ((qs.filter (inSupport lp X)).map (isWeight ll lp X D)).map logOf := by rw [List.map_map]; rfl
  rw [hl] at he
  have key := bootstrapErr_value _ hne hW a.nEvidence (rnd.boot s'.t) hb
  change (_ → s'.logzErr = _) ∧ (_ → s'.logzErr = _)
  rw [he]
  exact ⟨fun h => congrArg some (key.1 h), fun h => congrArg some (key.2 h)⟩

/-- **C96 (partial).** If some draw of the flow lies in the support of the prior and the likelihood is zero at none of those draws, the
error bar is a finite non-negative number, at most the spread of the logarithms of the weights: zero if the weights are equal. Missing:
draws in the support with zero likelihood, for which the claim is false (`Demo.C96_not_always`). -/
theorem C96_error_partial (hu : UserFns e ll lp bb hb) (hp : ProperLike ll) (hp' : ProperLike lp) (hc : Configured e) (hs : Session e hb s)
    {rnd : Rnd d Φ} (hd : Draws s.scaler.low s.scaler.high rnd) {fuel n : ℕ} {a : RunArgs} {s' : Sampler d B Φ}
    (hr : (run e rnd fuel n a s).2 = .ok s') (hpre : e.preconditioned = true) (hn : 0 < a.nEvidence)
    (qs : List ((Fin d → ℝ) × ℝ)) (hq : rnd.flowSample s'.t s'.flow a.nEvidence = qs.map fun q => (pt q.1, fin q.2)) :
    ∃ (X : (Fin d → ℝ) → Pt d) (D : (Fin d → ℝ) → ℝ), (∀ θ, s'.scaler.inverseRow (pt θ) = .ok (X θ, fin (D θ))) ∧
      ∀ S, S = qs.filter (inSupport lp X) → S ≠ [] → (∀ q ∈ S, ll (X q.1) ≠ ninf) →
        (∀ r, ∀ k < S.length, rnd.boot s'.t r k < S.length) →
        ∃ δ : ℝ, (evidence s').2 = some (fin δ) ∧ 0 ≤ δ ∧
          ∀ lo hi : ℝ, 0 < lo → (∀ q ∈ S, lo ≤ isWeight ll lp X D q ∧ isWeight ll lp X D q ≤ hi) → δ ≤ Real.log hi - Real.log lo := by
  obtain ⟨X, D, hXD, h⟩ := C96_error hu hp hp' hc hs hd hr hpre hn qs hq
  refine ⟨X, D, hXD, ?_⟩
  rintro S rfl hne hll hb
  obtain ⟨h1, -⟩ := h _ rfl (by simpa using hne) (by simpa using hb)
  have hpos : ∀ q ∈ qs.filter (inSupport lp X), 0 < isWeight ll lp X D q := by
    intro q hq
    have e1 := hll q hq
    have e2 : lp (X q.1) ≠ ninf := by
      have := (List.mem_filter.mp hq).2
      intro h
      rw [inSupport, h] at this
      cases this
    unfold isWeight
    rcases hp (X q.1) with h | ⟨l, h⟩
    · exact absurd h e1
    rcases hp' (X q.1) with h' | ⟨l', h'⟩
    · exact absurd h' e2
    rw [h, h']
    simp only [unlog]
    positivity
  have hR : ∀ f : ℕ → ℝ, (List.range (Max.max a.nEvidence 1000)).map f ≠ [] := by
    intro f h0
    have := congrArg List.length h0
    simp at this
  have hlenpos := List.length_pos_iff.mpr hne
  refine ⟨_, h1 ?_, Real.sqrt_nonneg _, ?_⟩
  · intro r _ hz
    have hk := hb r 0 hlenpos
    have := hz 0 (by simpa using hlenpos)
    rw [List.getD_eq_getElem?_getD, List.getElem?_map, List.getElem?_eq_getElem hk] at this
    exact (hpos _ (List.getElem_mem _)).ne' this
  · intro lo hi hlo hW
    apply popStd_le (hR _)
    intro x hx
    obtain ⟨r, -, rfl⟩ := List.mem_map.mp hx
    obtain ⟨b1, b2⟩ := bootMean_mem (W := (qs.filter (inSupport lp X)).map (isWeight ll lp X D)) (by simpa using hne) (lo := lo) (hi := hi) (by
      intro w hw
      obtain ⟨q, hq, rfl⟩ := List.mem_map.mp hw
      exact hW q hq) (pick := rnd.boot s'.t r) (by simpa using hb r)
    exact ⟨Real.log_le_log hlo b1, Real.log_le_log (hlo.trans_le b1) b2⟩

end

namespace Demo

/-- The draws of the example, every index of the bootstrap being the second draw. -/
noncomputable def rnd96 : Rnd 2 Unit := { rnd59 with boot := fun _ _ _ => 1 }

/-- A run of the example with a flow that yields `θ = 0` and `θ = 4`, where the first parameter is at most 3 and above 3. -/
theorem run96 (ll lp : Pt 2 → F) (hf : FlatEnv (envOf ll lp) ll) (h0 : ∀ x : Pt 2, ¬ x 0 > fin 3 → ll x = fin 0) (boot : ℕ → ℕ → ℕ → ℕ) :
    ∃ (s : Sampler 2 Unit Unit) (x0 x4 : Pt 2) (l0 l4 : F), Draws start.scaler.low start.scaler.high { rnd59 with boot := boot } ∧
      (run (envOf ll lp) { rnd59 with boot := boot } 0 1 (args 2) start).2 = .ok s ∧
      s.scaler.inverseRow (pt fun _ => 0) = .ok (x0, l0) ∧ s.scaler.inverseRow (pt fun _ => 4) = .ok (x4, l4) ∧
      ¬ x0 0 > fin 3 ∧ x4 0 > fin 3 := by
  have hd : Draws start.scaler.low start.scaler.high { rnd59 with boot := boot } := ⟨draws59.prior, draws59.mcmc⟩
  have hrel : Reliable (envOf ll lp) { rnd59 with boot := boot } :=
    { geo := fun _ _ _ => ⟨_, rfl⟩
      flow := fun _ _ _ _ => ⟨_, rfl⟩
      inv := fun m => ⟨m, rfl⟩
      chol := fun m => ⟨m, rfl⟩
      dim := by simp [env, envOf]
      freq := by simp [env, envOf]
      ratio := ⟨_, rfl⟩
      mult := fun _ _ => ⟨le_rfl, one_pos⟩
      syst := fun _ => ⟨le_rfl, one_pos⟩ }
  obtain ⟨s, its, hr, -⟩ := flat_first_run hf (userOf ll lp) (configuredOf ll lp) hd hrel (freshOf ll lp) (by
      intro x hx
      apply h0
      have hprior : rnd59.prior (envOf ll lp).nPrior = [pt fun _ => 0, pt fun _ => 1, pt fun _ => 2, pt fun _ => 3] := by
        simp [rnd59, rnd, envOf, env, List.range_succ]
      change x ∈ rnd59.prior (envOf ll lp).nPrior at hx
      rw [hprior] at hx
      simp only [List.mem_cons, List.not_mem_nil, or_false] at hx
      rcases hx with rfl | rfl | rfl | rfl <;> simp only [pt, gt_iff_lt, F.fin_lt] <;> norm_num)
    (by simp [env, envOf, start]) (args 2) (by simp [args]) (by simp [args, env, envOf]) 0 0
  obtain ⟨s1, h1, hsc⟩ := run_scaler hr
  have hs54 : (1 : ℝ) < Real.sqrt 1.25 := by
    rw [Real.lt_sqrt (by norm_num)]; norm_num
  obtain ⟨x0, ld0, i0, j0⟩ := scaler59 ll lp _ s1 h1 0
  obtain ⟨x4, ld4, i4, j4⟩ := scaler59 ll lp _ s1 h1 4
  rw [← hsc] at i0 i4
  refine ⟨s, x0, x4, ld0, ld4, hd, hr, i0, i4, ?_, ?_⟩
  · rw [j0]; simp only [gt_iff_lt, F.fin_lt]; norm_num
  · rw [j4]; simp only [gt_iff_lt, F.fin_lt]; nlinarith

/-- **C96 is false as stated.** Of two draws of the flow in the support of the prior one has likelihood zero; the reported evidence is
a finite number, but a replicate that takes the second draw twice makes the error bar NaN. -/
theorem C96_not_always : ∃ (ll lp : Pt 2 → F) (rnd : Rnd 2 Unit) (s : Sampler 2 Unit Unit) (z : ℝ), ProperLike ll ∧ (∀ x, lp x = fin 0) ∧
    Draws start.scaler.low start.scaler.high rnd ∧ (∀ t r k, rnd.boot t r k < 2) ∧
    (run (envOf ll lp) rnd 0 1 (args 2) start).2 = .ok s ∧ evidence s = (some (fin z), some nan) := by
  let ll := lp59
  let lp : Pt 2 → F := fun _ => fin 0
  have h0 : ∀ x : Pt 2, ¬ x 0 > fin 3 → ll x = fin 0 := fun x hx => if_neg hx
  have h4 : ∀ x : Pt 2, x 0 > fin 3 → ll x = ninf := fun x hx => if_pos hx
  have hf : FlatEnv (envOf ll lp) ll := ⟨fun x => by
    by_cases h : x 0 > fin 3
    · exact .inr (h4 x h)
    · exact .inl (h0 x h), rfl, rfl⟩
  obtain ⟨s, x0, x4, l0, l4, hd, hr, i0, i4, j0, j4⟩ := run96 ll lp hf h0 (fun _ _ _ => 1)
  let qs : List ((Fin 2 → ℝ) × ℝ) := [(fun _ => 0, 0), (fun _ => 4, 0)]
  have hq : rnd96.flowSample s.t s.flow (args 2).nEvidence = qs.map fun q => (pt q.1, fin q.2) := by simp [rnd96, rnd59, qs, args]
  have hp' : ProperLike lp := fun x => .inr ⟨0, rfl⟩
  obtain ⟨X, D, hXD, h⟩ := C96_error (rnd := rnd96) (userOf ll lp) hf.proper hp' (configuredOf ll lp) (.fresh (freshOf ll lp)) hd hr rfl (by simp [args]) qs hq
  obtain ⟨X', D', hXD', hz⟩ := C59_evidence (rnd := rnd96) (userOf ll lp) hf.proper hp' (configuredOf ll lp) (.fresh (freshOf ll lp)) hd hr rfl (by simp [args]) qs hq
  have hXX : ∀ θ, X θ = X' θ ∧ D θ = D' θ := fun θ => by
    have := (hXD θ).symm.trans (hXD' θ)
    simpa using this
  obtain rfl : X = X' := funext fun θ => (hXX θ).1
  obtain rfl : D = D' := funext fun θ => (hXX θ).2
  have hX0 : X (fun _ => 0) = x0 := by
    have := (hXD fun _ => 0).symm.trans i0
    simp only [Except.ok.injEq, Prod.mk.injEq] at this
    exact this.1
  have hX4 : X (fun _ => 4) = x4 := by
    have := (hXD fun _ => 4).symm.trans i4
    simp only [Except.ok.injEq, Prod.mk.injEq] at this
    exact this.1
  have hsup : ∀ q, inSupport lp X q = true := fun q => rfl
  have hfil : qs.filter (inSupport lp X) = qs := List.filter_eq_self.mpr fun q _ => hsup q
  have hcnt : qs.countP (inSupport lp X) = 2 := by simp [List.countP_eq_length_filter, hfil, qs]
  have hw0 : 0 < isWeight ll lp X D (fun _ => 0, 0) := by
    simp only [isWeight, hX0, h0 x0 j0, unlog, lp]; positivity
  have hw4 : isWeight ll lp X D (fun _ => 4, 0) = 0 := by simp [isWeight, hX4, h4 x4 j4, unlog]
  obtain ⟨-, hnan⟩ := h _ rfl (by rw [hfil]; simp [qs]) (by rw [hfil]; simp [qs, rnd96])
  rw [hfil] at hnan
  refine ⟨ll, lp, rnd96, s, Real.log (isWeight ll lp X D (fun _ => 0, 0) / 2), hf.proper, fun _ => rfl, hd, fun _ _ _ => one_lt_two, hr, Prod.ext ?_ (hnan ?_)⟩
  · change s.logz = _
    rw [hz]
    simp only [hcnt]
    have : (qs.map (isWeight ll lp X D)).sum = isWeight ll lp X D (fun _ => 0, 0) := by simp [qs, hw4]
    rw [this, logOf]
    simp [hw0.ne']
  · refine ⟨0, by simp, fun k _ => ?_⟩
    simp [qs, rnd96, hw4]

/-- A run with two draws of positive weight: `C96_error_partial` applies. -/
example : ∃ (s : Sampler 2 Unit Unit) (δ : ℝ), (run (envOf (fun _ => fin 0) (fun _ => fin 0)) rnd96 0 1 (args 2) start).2 = .ok s ∧
    (evidence s).2 = some (fin δ) ∧ 0 ≤ δ := by
  let ll : Pt 2 → F := fun _ => fin 0
  have hf : FlatEnv (envOf ll ll) ll := ⟨fun x => .inl rfl, rfl, rfl⟩
  obtain ⟨s, x0, x4, l0, l4, hd, hr, -⟩ := run96 ll ll hf (fun _ _ => rfl) (fun _ _ _ => 1)
  let qs : List ((Fin 2 → ℝ) × ℝ) := [(fun _ => 0, 0), (fun _ => 4, 0)]
  have hq : rnd96.flowSample s.t s.flow (args 2).nEvidence = qs.map fun q => (pt q.1, fin q.2) := by simp [rnd96, rnd59, qs, args]
  have hp' : ProperLike ll := fun x => .inr ⟨0, rfl⟩
  obtain ⟨X, D, hXD, h⟩ := C96_error_partial (rnd := rnd96) (userOf ll ll) hf.proper hp' (configuredOf ll ll) (.fresh (freshOf ll ll)) hd hr rfl (by simp [args]) qs hq
  have hfil : qs.filter (inSupport ll X) = qs := List.filter_eq_self.mpr fun q _ => rfl
  obtain ⟨δ, h1, h2, -⟩ := h _ rfl (by rw [hfil]; simp [qs]) (by simp [ll]) (by rw [hfil]; simp [qs, rnd96])
  exact ⟨s, δ, hr, h1, h2⟩

end Demo

end Poco
