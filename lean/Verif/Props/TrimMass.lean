import Verif.Props.Trim
import Verif.Props.DemoPosterior
import Verif.Props.Search

/-! How much weight `trim_weights` discards: property C118. -/

namespace Poco
open F Spec Classical

/-- The weighted average of `f`. -/
noncomputable def Spec.average {α : Type*} (f : α → ℝ) (l : List (α × ℝ)) : ℝ :=
  (l.map fun q => q.2 * f q.1).sum / (l.map (·.2)).sum

theorem sum_split {α : Type*} (l : List α) (p : α → Bool) (g : α → ℝ) :
    (l.map g).sum = ((l.filter p).map g).sum + ((l.filter fun a => !p a).map g).sum := by
  induction l with
  | nil => simp
  | cons a l ih =>
    by_cases h : p a <;> simp [h, ih] <;> ring

theorem sum_map_le {α : Type*} (l : List α) (f g : α → ℝ) (h : ∀ a ∈ l, f a ≤ g a) : (l.map f).sum ≤ (l.map g).sum :=
  List.sum_le_sum h

theorem sum_map_mul_left' {α : Type*} (l : List α) (c : ℝ) (g : α → ℝ) : (l.map fun a => c * g a).sum = c * (l.map g).sum := by
  induction l with
  | nil => simp
  | cons a l ih => simp [ih]; ring

theorem sum_nonpos' (l : List ℝ) (h : ∀ x ∈ l, x ≤ 0) : l.sum ≤ 0 := by
  induction l with
  | nil => simp
  | cons a l ih =>
    have h1 := h a (by simp)
    have h2 := ih fun x hx => h x (by simp [hx])
    simp; linarith

/-- A set of the heaviest that keeps the fraction `e` of the effective size keeps the fraction `e` of the weight. -/
theorem heavy_mass {α : Type*} (l : List (α × ℝ)) (h0 : ∀ q ∈ l, 0 ≤ q.2) (t e : ℝ) (ht : 0 ≤ t)
    (hK : 0 < ((l.filter fun q => decide (t ≤ q.2)).map (·.2)).sum)
    (he : e * ess (l.map (·.2)) ≤ ess ((l.filter fun q => decide (t ≤ q.2)).map (·.2))) :
    e * (l.map (·.2)).sum ≤ ((l.filter fun q => decide (t ≤ q.2)).map (·.2)).sum := by
  set p : α × ℝ → Bool := fun q => decide (t ≤ q.2) with hp
  have s1 := sum_split l p (·.2)
  have s2 := sum_split l p (fun q => q.2 ^ 2)
  have hR0 : 0 ≤ ((l.filter fun a => !p a).map (·.2)).sum := by
    apply List.sum_nonneg
    intro x hx
    obtain ⟨q, hq, rfl⟩ := List.mem_map.mp hx
    exact h0 q (List.mem_filter.mp hq).1
  have k1 : t * ((l.filter p).map (·.2)).sum ≤ ((l.filter p).map fun q => q.2 ^ 2).sum := by
    rw [← sum_map_mul_left']
    apply sum_map_le
    intro q hq
    have h1 := h0 q (List.mem_filter.mp hq).1
    have h2 : t ≤ q.2 := by simpa [hp] using (List.mem_filter.mp hq).2
    nlinarith
  have k2 : ((l.filter fun a => !p a).map fun q => q.2 ^ 2).sum ≤ t * ((l.filter fun a => !p a).map (·.2)).sum := by
    rw [← sum_map_mul_left']
    apply sum_map_le
    intro q hq
    have h1 := h0 q (List.mem_filter.mp hq).1
    have h2 : q.2 < t := by simpa [hp] using (List.mem_filter.mp hq).2
    nlinarith
  have hS : 0 < ((l.filter p).map fun q => q.2 ^ 2).sum := by
    obtain ⟨x, hx, hx0⟩ : ∃ x ∈ (l.filter p).map (·.2), 0 < x := by
      by_contra hcon
      push Not at hcon
      exact absurd (sum_nonpos' _ hcon) (not_le.mpr hK)
    obtain ⟨q, hq, rfl⟩ := List.mem_map.mp hx
    refine lt_of_lt_of_le (by positivity : 0 < q.2 ^ 2) ?_
    exact List.single_le_sum (by
      intro y hy
      obtain ⟨q', -, rfl⟩ := List.mem_map.mp hy
      positivity) _ (List.mem_map.mpr ⟨q, hq, rfl⟩)
  have hQ0 : 0 ≤ ((l.filter fun a => !p a).map fun q => q.2 ^ 2).sum := by
    apply List.sum_nonneg
    intro x hx
    obtain ⟨q, hq, rfl⟩ := List.mem_map.mp hx
    positivity
  unfold ess at he
  simp only [List.map_map, Function.comp_def] at he
  change 0 < ((l.filter p).map (·.2)).sum at hK
  change e * ((l.map (·.2)).sum ^ 2 / (l.map fun q => q.2 ^ 2).sum) ≤ ((l.filter p).map (·.2)).sum ^ 2 / ((l.filter p).map fun q => q.2 ^ 2).sum at he
  change e * (l.map (·.2)).sum ≤ ((l.filter p).map (·.2)).sum
  rw [s1, s2] at he
  rw [s1]
  generalize ((l.filter p).map (·.2)).sum = K at *
  generalize ((l.filter fun a => !p a).map (·.2)).sum = R at *
  generalize ((l.filter p).map fun q => q.2 ^ 2).sum = S at *
  generalize ((l.filter fun a => !p a).map fun q => q.2 ^ 2).sum = Q at *
  by_cases he0 : e ≤ 0
  · nlinarith
  push Not at he0
  rw [le_div_iff₀ hS, mul_div_assoc', div_mul_eq_mul_div, div_le_iff₀ (by linarith)] at he
  have key : K * Q ≤ S * R := by
    calc K * Q ≤ K * (t * R) := by gcongr
      _ = t * K * R := by ring
      _ ≤ S * R := by gcongr
  -- `S / (S + Q) ≥ K / (K + R)`
  have h3 : (K + R) * S ≥ K * (S + Q) := by nlinarith
  by_contra hcon
  push Not at hcon
  have h4 : K * (K * (S + Q)) < e * (K + R) * (K * (S + Q)) := by
    apply mul_lt_mul_of_pos_right hcon; positivity
  have h5 : e * (K + R) * (K * (S + Q)) ≤ e * (K + R) * ((K + R) * S) := by
    apply mul_le_mul_of_nonneg_left h3; positivity
  nlinarith

/-- The average over a part holding the fraction `e` of the weight. -/
theorem average_close {α : Type*} (l : List (α × ℝ)) (h0 : ∀ q ∈ l, 0 ≤ q.2) (p : α × ℝ → Bool) (e M : ℝ)
    (hK : 0 < ((l.filter p).map (·.2)).sum) (he : e * (l.map (·.2)).sum ≤ ((l.filter p).map (·.2)).sum)
    (f : α → ℝ) (hf : ∀ a, |f a| ≤ M) : |average f (l.filter p) - average f l| ≤ 2 * (1 - e) * M := by
  have bound : ∀ l' : List (α × ℝ), (∀ q ∈ l', 0 ≤ q.2) → |(l'.map fun q => q.2 * f q.1).sum| ≤ M * (l'.map (·.2)).sum := by
    intro l' h'
    refine (list_abs_sum_le l' _).trans ?_
    rw [← sum_map_mul_left']
    apply sum_map_le
    intro q hq
    rw [abs_mul, abs_of_nonneg (h' q hq), mul_comm]
    exact mul_le_mul_of_nonneg_right (hf _) (h' q hq)
  have b1 := bound (l.filter p) fun q hq => h0 q (List.mem_filter.mp hq).1
  have b2 := bound (l.filter fun a => !p a) fun q hq => h0 q (List.mem_filter.mp hq).1
  have hR0 : 0 ≤ ((l.filter fun a => !p a).map (·.2)).sum := by
    apply List.sum_nonneg
    intro x hx
    obtain ⟨q, hq, rfl⟩ := List.mem_map.mp hx
    exact h0 q (List.mem_filter.mp hq).1
  unfold average
  rw [sum_split l p (·.2), sum_split l p fun q => q.2 * f q.1]
  rw [sum_split l p (·.2)] at he
  generalize ((l.filter p).map (·.2)).sum = K at *
  generalize ((l.filter fun a => !p a).map (·.2)).sum = R at *
  generalize ((l.filter p).map fun q => q.2 * f q.1).sum = A at *
  generalize ((l.filter fun a => !p a).map fun q => q.2 * f q.1).sum = C at *
  have hKR : 0 < K + R := by linarith
  have e1 : A / K - (A + C) / (K + R) = (A * R - C * K) / (K * (K + R)) := by
    field_simp; ring
  rw [e1, abs_div, abs_of_pos (by positivity : 0 < K * (K + R)), div_le_iff₀ (by positivity)]
  have hM : 0 ≤ M := by
    by_contra hcon
    push Not at hcon
    have := (abs_nonneg A).trans b1
    nlinarith
  calc |A * R - C * K| ≤ |A| * R + |C| * K := by
        refine (abs_sub _ _).trans ?_
        rw [abs_mul, abs_mul, abs_of_nonneg hR0, abs_of_pos hK]
    _ ≤ M * K * R + M * R * K := by gcongr
    _ = 2 * M * K * R := by ring
    _ ≤ 2 * M * K * ((1 - e) * (K + R)) := by
        apply mul_le_mul_of_nonneg_left _ (by positivity)
        linarith
    _ = 2 * (1 - e) * M * (K * (K + R)) := by ring

/-- C118: the samples `trim_weights` keeps hold at least the fraction `ess` of the total weight. Averages of a bounded function over
what it returns differ from averages over everything by at most `2 (1 - ess)` times the bound. -/
theorem C118_trim_mass {α : Type*} (samples : List α) (w : List ℝ) (h : IsWeights w) (hl : samples.length = w.length)
    (e : ℝ) (he : e ≤ 1) (bins : ℕ) (hb : 1 ≤ bins) :
    ∃ (r : Trimmed α) (kept : List (α × ℝ)), trimWeights samples (w.map fin) (fin e) bins = .ok r ∧
      kept.Sublist (samples.zip w) ∧ r.samples = kept.map (·.1) ∧
      r.weights = kept.map (fun q => fin (q.2 / (kept.map (·.2)).sum)) ∧
      e * w.sum ≤ (kept.map (·.2)).sum ∧ 0 < (kept.map (·.2)).sum ∧
      ∀ (f : α → ℝ) (M : ℝ), (∀ a, |f a| ≤ M) → |average f kept - average f (samples.zip w)| ≤ 2 * (1 - e) * M := by
  obtain ⟨j, hj, h1, h2, -⟩ := trimWeights_ok samples w h hl e he bins hb
  have hs := h.2.ne'
  have hln : samples.length = (w.map (· / w.sum)).length := by simp [hl]
  set wn := w.map (· / w.sum) with hwn
  set t := Spec.percentile wn (gridPoint bins j) with ht
  set kept := (samples.zip w).filter (fun q => decide (t ≤ q.2 / w.sum)) with hk
  have hkept : (keptAt wn bins j) = (kept.map (·.2)).map (· / w.sum) := by
    have hz := zip_filter_snd (fun x => decide (t ≤ x)) samples wn hln
    rw [hwn, zip_map_div] at hz
    unfold keptAt
    rw [← ht, ← hz]
    simp [hk, Function.comp_def]
  have hpos := keptAt_sum_pos wn h.normalize bins j hj
  rw [hkept, list_sum_map_div] at hpos
  have hpos' : 0 < (kept.map (·.2)).sum := (div_pos_iff_of_pos_right h.2).mp hpos
  have hsnd : (samples.zip w).map (·.2) = w := List.map_snd_zip (by omega)
  have hnn : ∀ q ∈ samples.zip w, 0 ≤ q.2 := fun q hq => h.1 _ (List.of_mem_zip (show (q.1, q.2) ∈ _ from hq)).2
  have hfil : kept = (samples.zip w).filter (fun q => decide (max 0 (t * w.sum) ≤ q.2)) := by
    rw [hk]
    apply List.filter_congr
    intro q hq
    simp only [decide_eq_decide, max_le_iff, le_div_iff₀ h.2]
    exact ⟨fun k => ⟨hnn q hq, k⟩, fun k => k.2⟩
  have hmass : e * w.sum ≤ (kept.map (·.2)).sum := by
    have := heavy_mass (samples.zip w) hnn (max 0 (t * w.sum)) e (le_max_left _ _) (by rw [← hfil]; exact hpos') (by
      rw [← hfil, hsnd]
      rw [hkept, ess_div _ _ hs, ess_div _ _ hs] at h2
      exact h2)
    rw [← hfil, hsnd] at this
    exact this
  refine ⟨_, kept, h1, List.filter_sublist, ?_, ?_, hmass, hpos', fun f M hf => ?_⟩
  · simp only [hwn]
    rw [zip_map_div]
    simp [hk, Function.comp_def]
  · simp only [hkept, List.map_map, Function.comp_def]
    have := list_sum_map_div w.sum (kept.map (·.2))
    simp only [List.map_map, Function.comp_def] at this
    rw [this]
    apply List.map_congr_left
    intro q _
    rw [div_div_div_cancel_right₀ hs]
  · exact average_close _ hnn _ e M hpos' (by rw [hsnd]; exact hmass) f hf


/-! ### `posterior` -/

theorem gather_map_get {α : Type} {a out : List α} {idx : List ℕ} (h : gather a idx = .ok out) (f : α → ℝ) :
    out.map f = idx.map fun i => ((a[i]?).map f).getD 0 := by
  induction idx generalizing out with
  | nil =>
    simp only [gather, List.mapM_nil, pure, Except.pure, Except.ok.injEq] at h
    subst h; rfl
  | cons i idx ih =>
    unfold gather at h
    rw [List.mapM_cons] at h
    obtain ⟨v, h1, h⟩ := bind_ok h
    obtain ⟨vs, h2, h⟩ := bind_ok h
    simp only [pure, Except.pure, Except.ok.injEq] at h
    subst h
    cases hv : a[i]? with
    | none => rw [hv] at h1; cases h1
    | some b =>
      rw [hv] at h1
      simp only [Except.ok.injEq] at h1
      subst h1
      simp [hv, ih h2]

theorem average_zip {α : Type*} (f : α → ℝ) (xs : List α) (ws : List ℝ) (h : xs.length = ws.length) :
    average f (xs.zip ws) = (List.zipWith (fun y w => w * y) (xs.map f) ws).sum / ws.sum := by
  unfold average
  rw [List.map_snd_zip (by omega)]
  congr 2
  rw [List.zip_eq_zipWith, List.map_zipWith, List.zipWith_map_left]

variable {d : ℕ} {B Φ : Type} {e : SamplerEnv d B Φ} {ll lp : Pt d → F} {bb : Pt d → List B} {hb : Bool} {s : Sampler d B Φ}

/-- C118 (for `posterior`): weighted averages of a bounded function over the trimmed posterior samples differ from those over all samples
by at most `2 (1 - ess_trim)` times the bound. -/
theorem C118_posterior (hu : UserFns e ll lp bb hb) (hp : ProperLike ll) (hc : Configured e) (hs : Session e hb s)
    (hne : s.particles.past.x ≠ []) (us : ℕ → ℝ) (u : ℝ) (a : PostArgs) (hr : a.resample = false) (hw : a.returnLogw = false)
    (ε : ℝ) (ha : a.essTrim = fin ε) (hε : ε ≤ 1) (hbins : 1 ≤ a.binsTrim) (hbl : a.returnBlobs = true → hb = true) :
    ∃ (out0 out1 : PostOut d B) (w0 w1 : List ℝ), posterior e us u { a with trim := false } s = .ok out0 ∧
      posterior e us u { a with trim := true } s = .ok out1 ∧ out0.weights = some (w0.map fin) ∧ out1.weights = some (w1.map fin) ∧
      w0.length = out0.samples.length ∧ w1.length = out1.samples.length ∧ w0.sum = 1 ∧ w1.sum = 1 ∧
      ∀ (f : Pt d → ℝ) (M : ℝ), (∀ x, |f x| ≤ M) →
        |average f (out1.samples.zip w1) - average f (out0.samples.zip w0)| ≤ 2 * (1 - ε) * M := by
  obtain ⟨its, hi⟩ := hs.inv hu hc (ll := ll) (lp := lp) (bb := bb)
  have hne' : its ≠ [] := by
    rintro rfl
    apply hne
    rw [hi.past]; rfl
  obtain ⟨H, all, kept, p0, p, ls, hH, hR, hall, hll, hbel, hsub, htr, hkl, hkn, hp0, hp1, hp2⟩ :=
    posterior_core hc hi hp hne' { a with trim := false } (fun h => by cases h) hbl
  obtain ⟨_, _, _, p0', q, _, -, -, -, -, -, -, -, -, -, hq0, hq1, -⟩ :=
    posterior_core hc hi hp hne' { a with trim := true } (fun _ => ⟨ε, ha, hε, hbins⟩) hbl
  have hq0' : postCollect { a with trim := false } s = .ok p0' := hq0
  rw [hp0] at hq0'
  simp only [Except.ok.injEq] at hq0'
  subst hq0'
  have hpp : p0 = p := by simpa [postTrim] using hp1
  rw [← hpp] at hp2
  have hls : ls ≠ [] := by
    rintro rfl
    simp at hkl
    exact hkn hkl
  have hpos : 0 < (ls.map (weight H 1)).sum := sum_map_pos ls _ hls fun x _ => weight_pos H hR.1 1 x
  have hsum : (relWeights H ls).sum = 1 := by
    have := sum_normalized hpos.ne'
    simpa [relWeights, Function.comp_def] using this
  have hlen : (relWeights H ls).length = p0.samples.length := by
    have := congrArg List.length hkl
    rw [hp2]
    simpa [relWeights] using this.symm
  have hW : IsWeights (relWeights H ls) := by
    refine ⟨fun x hx => ?_, by rw [hsum]; norm_num⟩
    obtain ⟨l, -, rfl⟩ := List.mem_map.mp hx
    exact div_nonneg (weight_pos H hR.1 1 l).le hpos.le
  have hpw : p0.weights = (relWeights H ls).map fin := by rw [hp2]
  obtain ⟨tr, K, k1, k2, k3, k4, k5, k6, k7⟩ := C118_trim_mass (List.range p0.samples.length) (relWeights H ls) hW (by simp [hlen]) ε hε
    a.binsTrim hbins
  have hq2 := hq1
  unfold postTrim at hq1
  dsimp only at hq1
  rw [if_pos rfl, hpw, ha, k1] at hq1
  obtain ⟨_, g0, hq1⟩ := bind_ok hq1
  simp only [Except.ok.injEq] at g0
  subst g0
  obtain ⟨xs, g1, hq1⟩ := bind_ok hq1
  obtain ⟨_, -, hq1⟩ := bind_ok hq1
  obtain ⟨_, -, hq1⟩ := bind_ok hq1
  obtain ⟨_, -, hq1⟩ := bind_ok hq1
  obtain ⟨_, -, hq1⟩ := bind_ok hq1
  simp only [pure, Except.pure, Except.ok.injEq] at hq1
  have e0 : posterior e us u { a with trim := false } s = postReturn e.resample us u { a with trim := false } p0 := by
    unfold posterior
    rw [hp0]
    simp only [bind, Except.bind, hp1, ← hpp]
  have e1 : posterior e us u { a with trim := true } s = postReturn e.resample us u { a with trim := true } q := by
    unfold posterior
    rw [hq0]
    simp only [bind, Except.bind, hq2]
  have hlen1 : (K.map fun q => q.2 / (K.map (·.2)).sum).length = xs.length := by
    have := congrArg List.length (gather_map_get g1 fun _ => 0)
    rw [k3] at this
    simpa using this.symm
  have hsum1 : (K.map fun q => q.2 / (K.map (·.2)).sum).sum = 1 := by
    have := sum_normalized k6.ne'
    simpa [Function.comp_def] using this
  refine ⟨_, _, relWeights H ls, K.map fun q => q.2 / (K.map (·.2)).sum, e0.trans (by simp only [postReturn, hr, hw]; rfl),
    e1.trans (by simp only [postReturn, hr, hw]; rfl), by simp [hpw], ?_, hlen, ?_, hsum, hsum1, fun f M hf => ?_⟩
  · rw [← hq1]
    simp [k4]
  · rw [← hq1]
    exact hlen1
  · have hM : 0 ≤ M := (abs_nonneg _).trans (hf fun _ => fin 0)
    have key := k7 (fun i => ((p0.samples[i]?).map f).getD 0) M (by
      intro i
      cases p0.samples[i]? with
      | none => simpa using hM
      | some x => exact hf x)
    rw [← hq1]
    have a1 : average f (xs.zip (K.map fun q => q.2 / (K.map (·.2)).sum)) = average (fun i => ((p0.samples[i]?).map f).getD 0) K := by
      rw [average_zip _ _ _ hlen1.symm, gather_map_get g1 f, k3, hsum1]
      unfold average
      rw [List.map_map, List.zipWith_map, List.zipWith_self, div_one, ← list_sum_map_div]
      simp only [List.map_map]
      congr 1
      apply List.map_congr_left
      intro q _
      simp only [Function.comp]
      ring
    have a0 : average f (p0.samples.zip (relWeights H ls)) =
        average (fun i => ((p0.samples[i]?).map f).getD 0) ((List.range p0.samples.length).zip (relWeights H ls)) := by
      rw [average_zip _ _ _ hlen.symm, average_zip _ _ _ (by simp [hlen])]
      congr 3
      apply List.ext_getElem
      · simp
      · intro i h1 h2
        simp at h1
        simp [h1]
    rw [a1, a0]
    exact key

/-- Weights of which some are dropped. -/
example : IsWeights [0.001, 0.5, 0.499] ∧ (["a", "b", "c"]).length = ([0.001, 0.5, 0.499] : List ℝ).length ∧ (0.99 : ℝ) ≤ 1 :=
  ⟨⟨by intro x hx; simp at hx; rcases hx with rfl | rfl | rfl <;> norm_num, by norm_num⟩, rfl, by norm_num⟩

/-- The example run: with the default arguments an average of a function bounded by 1 moves by at most 0.02. -/
example : ∃ (s : Sampler 2 Unit Unit) (out0 out1 : PostOut 2 Unit) (w0 w1 : List ℝ), (run (Demo.env true) Demo.rnd 0 1 (Demo.args 0) Demo.start).2 = .ok s ∧
    posterior (Demo.env true) (fun _ => 0) 0 { PostArgs.default with trim := false } s = .ok out0 ∧ out0.weights = some (w0.map fin) ∧
    posterior (Demo.env true) (fun _ => 0) 0 PostArgs.default s = .ok out1 ∧ out1.weights = some (w1.map fin) ∧
    ∀ f : Pt 2 → ℝ, (∀ x, |f x| ≤ 1) → |average f (out1.samples.zip w1) - average f (out0.samples.zip w0)| ≤ 0.02 := by
  obtain ⟨s, hr, hs, hl⟩ := Demo.session true 0
  obtain ⟨out0, out1, w0, w1, k1, k2, k3, k4, -, -, -, -, k5⟩ := C118_posterior (Demo.user true) Demo.proper (Demo.configured true) hs
    (by intro h; rw [h] at hl; simp at hl) (fun _ => 0) 0 PostArgs.default rfl rfl 0.99 rfl (by norm_num) (by simp [PostArgs.default])
    (fun h => by cases h)
  refine ⟨s, out0, out1, w0, w1, hr, k1, k3, k2, k4, fun f hf => (k5 f 1 hf).trans (by norm_num)⟩

end Poco
