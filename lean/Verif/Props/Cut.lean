import Verif.Spec.Cut
import Verif.Props.TrimMass
import Verif.Props.Between

/-! Trimming the posterior cuts at one value of the likelihood: property C148. -/

namespace Poco
open F Spec Classical

theorem map_sum_le {α : Type*} (l : List α) (f g : α → ℝ) (h : ∀ x ∈ l, f x ≤ g x) : (l.map f).sum ≤ (l.map g).sum :=
  List.sum_le_sum h

theorem map_sum_lt {α : Type*} (l : List α) (f g : α → ℝ) (h : ∀ x ∈ l, f x ≤ g x) (h' : ∃ x ∈ l, f x < g x) :
    (l.map f).sum < (l.map g).sum :=
  List.sum_lt_sum _ _ h h'

/-- The reciprocal of the weight at `β`. -/
theorem weight_inv (H : List Stage) (β l : ℝ) :
    weight H β l = ((H.map fun s => Real.exp (l * (s.beta - β)) / Real.exp s.logz).sum / H.length)⁻¹ := by
  unfold weight mixture
  rw [← one_div_div, inv_eq_one_div]
  congr 1
  rw [div_right_comm]
  congr 1
  induction H with
  | nil => simp
  | cons s H ih =>
    simp only [List.map_cons, List.sum_cons, add_div, ih]
    congr 1
    rw [div_right_comm, ← Real.exp_sub]
    congr 2
    ring

/-- Importance weights do not decrease with the likelihood if no iteration was hotter. -/
theorem weight_mono (H : List Stage) (hne : H ≠ []) (β : ℝ) (hβ : ∀ s ∈ H, s.beta ≤ β) {l l' : ℝ} (h : l ≤ l') :
    weight H β l ≤ weight H β l' := by
  have hn : (0 : ℝ) < H.length := by exact_mod_cast List.length_pos_iff.mpr hne
  rw [weight_inv, weight_inv]
  apply inv_anti₀
  · exact div_pos (sum_map_pos H _ hne fun _ _ => by positivity) hn
  · apply div_le_div_of_nonneg_right _ hn.le
    apply map_sum_le
    intro s hs
    have := hβ s hs
    gcongr ?_ / _
    apply Real.exp_le_exp.mpr
    nlinarith

theorem weight_strict (H : List Stage) (β : ℝ) (hβ : ∀ s ∈ H, s.beta ≤ β) (hlt : ∃ s ∈ H, s.beta < β) {l l' : ℝ} (h : l < l') :
    weight H β l < weight H β l' := by
  have hne : H ≠ [] := by
    rintro rfl
    simp at hlt
  have hn : (0 : ℝ) < H.length := by exact_mod_cast List.length_pos_iff.mpr hne
  rw [weight_inv, weight_inv]
  apply inv_strictAnti₀
  · exact div_pos (sum_map_pos H _ hne fun _ _ => by positivity) hn
  · apply div_lt_div_of_pos_right _ hn
    apply map_sum_lt
    · intro s hs
      have := hβ s hs
      gcongr ?_ / _
      apply Real.exp_le_exp.mpr
      nlinarith
    · obtain ⟨s, hs, hs'⟩ := hlt
      refine ⟨s, hs, ?_⟩
      gcongr ?_ / _
      apply Real.exp_lt_exp.mpr
      nlinarith

/-- Choosing indices by a condition on the weight is choosing rows by it. -/
theorem gather_filter {α : Type} (rows : List α) (f : α → ℝ) (P : ℝ → Bool) :
    gather rows ((((List.range rows.length).zip (rows.map f)).filter fun q => P q.2).map (·.1)) = .ok (rows.filter fun r => P (f r)) := by
  have hz : (List.range rows.length).zip (rows.map f) = ((List.range rows.length).zip rows).map fun p => (p.1, f p.2) := by
    rw [List.zip_map_right]
    rfl
  rw [hz, List.filter_map, List.map_map]
  have := gather_of_mem rows (((List.range rows.length).zip rows).filter fun p => P (f p.2)) (fun p => p.2) (by
    intro p hp
    obtain ⟨i, hi, hp'⟩ := List.mem_iff_getElem.mp (List.mem_filter.mp hp).1
    simp only [List.getElem_zip, List.getElem_range] at hp'
    rw [← hp']
    simp only
    rw [List.getElem?_eq_getElem])
  refine Eq.trans ?_ (this.trans ?_)
  · rfl
  · congr 1
    have h2 : rows = ((List.range rows.length).zip rows).map (·.2) := by
      rw [List.map_snd_zip (by simp)]
    conv_rhs => rw [h2]
    rw [List.filter_map]
    rfl

section
variable {d : ℕ} {B Φ : Type} {e : SamplerEnv d B Φ} {ll lp : Pt d → F} {bb : Pt d → List B} {hb : Bool} {s : Sampler d B Φ}

/-- The real number of a finite value. -/
noncomputable def realOf : F → ℝ
  | fin l => l
  | _ => 0

theorem holds_beta_le {its : List (Iter d (List B))} (hi : Inv e ll lp bb hb s its) {H : List Stage} (hH : Holds s.particles.past H) :
    ∀ st ∈ H, st.beta ≤ 1 := by
  obtain ⟨bs, b1, -, b3⟩ := hi.betas
  have h1 : s.particles.past.beta = bs.map fin := by rw [hi.past]; exact b1
  rw [hH.2.1] at h1
  intro st hst
  have : fin st.beta ∈ bs.map fin := by
    rw [← h1]
    exact List.mem_map_of_mem (f := fun s : Stage => fin s.beta) hst
  obtain ⟨b, hb1, hb2⟩ := List.mem_map.mp this
  simp only [fin_inj] at hb2
  rw [← hb2]
  exact (b3 b hb1).2

/-- C148: `posterior` with trimming returns exactly the stored particles whose log-likelihood is at least `t`, for one value `t`
which is the log-likelihood of one of them: no particle is dropped while a less likely one, or an equally likely one, is kept. -/
theorem C148_trim (hu : UserFns e ll lp bb hb) (hp : ProperLike ll) (hc : Configured e) (hs : Session e hb s)
    (hne : s.particles.past.x ≠ []) (us : ℕ → ℝ) (u : ℝ) (a : PostArgs) (ht : a.trim = true) (hr : a.resample = false)
    (ε : ℝ) (ha : a.essTrim = fin ε) (hε : ε ≤ 1) (hbins : 1 ≤ a.binsTrim) (hbl : a.returnBlobs = true → hb = true) :
    ∃ (all : List (Row d (List B))) (t : ℝ) (out : PostOut d B), AllRows hb s.particles.past all ∧ posterior e us u a s = .ok out ∧
      (∃ r ∈ all, r.logl = fin t) ∧
      out.samples = (all.filter fun r => reaches t r.logl).map (·.x) ∧
      out.logl = (all.filter fun r => reaches t r.logl).map (·.logl) ∧
      out.logp = (all.filter fun r => reaches t r.logl).map (·.logp) ∧
      out.blobs = if a.returnBlobs then some ((all.filter fun r => reaches t r.logl).map (·.blob)) else none := by
  obtain ⟨its, hi⟩ := hs.inv hu hc (ll := ll) (lp := lp) (bb := bb)
  have hne' : its ≠ [] := by
    rintro rfl
    apply hne
    rw [hi.past]; rfl
  obtain ⟨H, all, kept, p0, p, ls, hH, hR, hall, hll, hbel, hsub, htr, hkl, hkn, hp0, hp1, hp2⟩ :=
    posterior_core hc hi hp hne' { a with trim := false } (fun h => by cases h) hbl
  obtain ⟨_, _, _, p0', q, _, -, -, -, -, -, -, -, -, -, hq0, hq1, -⟩ :=
    posterior_core hc hi hp hne' a (fun _ => ⟨ε, ha, hε, hbins⟩) hbl
  have hq0' : postCollect { a with trim := false } s = .ok p0' := hq0
  rw [hp0] at hq0'
  simp only [Except.ok.injEq] at hq0'
  subst hq0'
  have hpp : p0 = p := by simpa [postTrim] using hp1
  rw [← hpp] at hp2
  obtain rfl := htr rfl
  have hβ := holds_beta_le hi hH
  have hls : ls ≠ [] := by
    rintro rfl
    simp at hkl
    exact hkn hkl
  have hfin : ∀ r ∈ kept, ∃ l, r.logl = fin l := by
    intro r hr'
    have : r.logl ∈ ls.map fin := by rw [← hkl]; exact List.mem_map_of_mem (f := fun r : Row d (List B) => r.logl) hr'
    obtain ⟨l, -, h⟩ := List.mem_map.mp this
    exact ⟨l, h.symm⟩
  have hls' : ls = kept.map fun r => realOf r.logl := by
    have : ls = (ls.map fin).map realOf := by rw [List.map_map]; simp [Function.comp_def, realOf]
    rw [this, ← hkl, List.map_map]
    rfl
  have hpos : 0 < (ls.map (weight H 1)).sum := sum_map_pos ls _ hls fun x _ => weight_pos H hR.1 1 x
  have hsum : (relWeights H ls).sum = 1 := by
    have := sum_normalized hpos.ne'
    simpa [relWeights, Function.comp_def] using this
  have hW : IsWeights (relWeights H ls) := by
    refine ⟨fun x hx => ?_, by rw [hsum]; norm_num⟩
    obtain ⟨l, -, rfl⟩ := List.mem_map.mp hx
    exact div_nonneg (weight_pos H hR.1 1 l).le hpos.le
  have hwn : (relWeights H ls).map (· / (relWeights H ls).sum) = relWeights H ls := by
    rw [hsum]
    simp
  have hlen : kept.length = (relWeights H ls).length := by
    have := congrArg List.length hkl
    simpa [relWeights] using this
  have hmap : relWeights H ls = kept.map fun r => weight H 1 (realOf r.logl) / (ls.map (weight H 1)).sum := by
    conv_lhs => rw [relWeights, hls']
    rw [List.map_map, ← hls']
    rfl
  obtain ⟨tr, i, -, k1, k2, -, k3, ⟨m, k4, k5⟩, -⟩ := C06_trim_threshold (List.range kept.length) (relWeights H ls) hW (by simp [hlen]) ε hε a.binsTrim hbins
  rw [hwn] at k2 k3 k4 k5
  set c := Spec.percentile (relWeights H ls) (gridPoint a.binsTrim i) with hc'
  set P : Row d (List B) → Bool := fun r => decide (c ≤ weight H 1 (realOf r.logl) / (ls.map (weight H 1)).sum) with hP
  have hgat : gather kept tr.samples = .ok (kept.filter P) := by
    rw [k2, hmap]
    exact gather_filter kept _ fun x => decide (c ≤ x)
  have hgat' : ∀ {β : Type} (f : Row d (List B) → β), gather (kept.map f) tr.samples = .ok ((kept.filter P).map f) := by
    intro β f
    rw [gather_map, hgat]
    rfl
  have hPne : kept.filter P ≠ [] := by
    intro hnil
    unfold keptAt at k4
    have hm := List.mem_filter.mp k4
    rw [hmap] at hm
    obtain ⟨r, hr', hrm⟩ := List.mem_map.mp hm.1
    have : r ∈ kept.filter P := List.mem_filter.mpr ⟨hr', by
      rw [hP]
      simp only [hrm]
      rw [← hmap] at hm
      exact hm.2⟩
    rw [hnil] at this
    cases this
  -- the least likely of the kept
  obtain ⟨t, ht1, ht2⟩ : ∃ t ∈ (kept.filter P).map fun r => realOf r.logl, ∀ l ∈ (kept.filter P).map fun r => realOf r.logl, t ≤ l := by
    have hne2 : ((kept.filter P).map fun r => realOf r.logl) ≠ [] := by simpa using hPne
    generalize ((kept.filter P).map fun r => realOf r.logl) = L at hne2
    clear * - hne2
    induction L with
    | nil => exact absurd rfl hne2
    | cons a L ih =>
      rcases eq_or_ne L [] with rfl | hL
      · exact ⟨a, by simp, by simp⟩
      · obtain ⟨t, h1, h2⟩ := ih hL
        rcases le_total a t with h | h
        · exact ⟨a, by simp, by simpa using fun l hl => h.trans (h2 l hl)⟩
        · exact ⟨t, by simp [h1], by simpa using ⟨h, h2⟩⟩
  obtain ⟨r0, hr0, hr0t⟩ := List.mem_map.mp ht1
  have hr0' := List.mem_filter.mp hr0
  have hcut : kept.filter P = kept.filter fun r => reaches t r.logl := by
    apply List.filter_congr
    intro r hr'
    obtain ⟨l, hl⟩ := hfin r hr'
    rw [Bool.eq_iff_iff]
    have h2 : reaches t r.logl = true ↔ t ≤ realOf r.logl := by rw [hl]; simp [reaches, realOf]
    rw [h2]
    constructor
    · intro h
      exact ht2 _ (List.mem_map_of_mem (f := fun r : Row d (List B) => realOf r.logl) (List.mem_filter.mpr ⟨hr', h⟩))
    · intro h
      have h3 := hr0'.2
      rw [hP] at h3 ⊢
      simp only [decide_eq_true_eq] at h3 ⊢
      refine h3.trans ?_
      rw [hr0t]
      exact div_le_div_of_nonneg_right (weight_mono H hR.1 1 hβ h) hpos.le
  have hq2 := hq1
  unfold postTrim at hq1
  rw [if_pos ht, hp2] at hq1
  dsimp only at hq1
  rw [List.length_map, ha, k1] at hq1
  simp only [bind, Except.bind, hgat'] at hq1
  have hgb : gatherBlobs (if a.returnBlobs then some (kept.map (·.blob)) else none) tr.samples
      = .ok (if a.returnBlobs then some ((kept.filter P).map (·.blob)) else none) := by
    cases a.returnBlobs
    · rfl
    · simp only [if_true, gatherBlobs, hgat', Except.map]
  rw [hgb] at hq1
  have e1 : posterior e us u a s = postReturn e.resample us u a q := by
    unfold posterior
    rw [show postCollect a s = .ok p0 from hp0]
    simp only [bind, Except.bind, hq2]
  obtain ⟨lw, hq⟩ : ∃ lw, Post.mk ((kept.filter P).map (·.x)) tr.weights lw ((kept.filter P).map (·.logl)) ((kept.filter P).map (·.logp))
      (if a.returnBlobs then some ((kept.filter P).map (·.blob)) else none) = q := by
    split at hq1
    · cases hq1
    · simp only [pure, Except.pure, Except.ok.injEq] at hq1
      exact ⟨_, hq1⟩
  refine ⟨kept, t, _, hall, e1.trans (by simp only [postReturn, hr]; rfl), ⟨r0, hr0'.1, ?_⟩, ?_, ?_, ?_, ?_⟩
  · obtain ⟨l, hl⟩ := hfin r0 hr0'.1
    rw [hl, ← hr0t, hl]
    rfl
  all_goals
    rw [← hcut, ← hq]

/-- C148: among the particles `posterior` returns, a more likely one has no smaller weight (and no smaller log-weight), trimmed or
not; if some iteration was recorded below inverse temperature one its weight is larger. -/
theorem C148_weights (hu : UserFns e ll lp bb hb) (hp : ProperLike ll) (hc : Configured e) (hs : Session e hb s)
    (hne : s.particles.past.x ≠ []) (us : ℕ → ℝ) (u : ℝ) (a : PostArgs) (hr : a.resample = false)
    (ha : a.trim = true → ∃ ε : ℝ, a.essTrim = fin ε ∧ ε ≤ 1 ∧ 1 ≤ a.binsTrim) (hbl : a.returnBlobs = true → hb = true) :
    ∃ (out : PostOut d B) (ls ws : List ℝ), posterior e us u a s = .ok out ∧ out.logl = ls.map fin ∧ out.weights = some (ws.map fin) ∧
      ls.length = out.samples.length ∧ ws.length = out.samples.length ∧
      ∀ (i j : ℕ) (l l' w w' : ℝ), ls[i]? = some l → ls[j]? = some l' → ws[i]? = some w → ws[j]? = some w' →
        (l ≤ l' → w ≤ w') ∧ ((∃ b : ℝ, b < 1 ∧ fin b ∈ s.particles.past.beta) → l < l' → w < w') := by
  obtain ⟨its, hi⟩ := hs.inv hu hc (ll := ll) (lp := lp) (bb := bb)
  have hne' : its ≠ [] := by
    rintro rfl
    apply hne
    rw [hi.past]; rfl
  obtain ⟨H, all, kept, p0, p, ls, hH, hR, hall, hll, hbel, hsub, htr, hkl, hkn, hp0, hp1, hp2⟩ :=
    posterior_core hc hi hp hne' a ha hbl
  have hβ := holds_beta_le hi hH
  have hls : ls ≠ [] := by
    rintro rfl
    simp at hkl
    exact hkn hkl
  have hpos : 0 < (ls.map (weight H 1)).sum := sum_map_pos ls _ hls fun x _ => weight_pos H hR.1 1 x
  have htot := totalWeight_pos hR 1
  have hlen : ls.length = kept.length := by simpa using (congrArg List.length hkl).symm
  have hstr : (∃ b : ℝ, b < 1 ∧ fin b ∈ s.particles.past.beta) → ∃ st ∈ H, st.beta < 1 := by
    rintro ⟨b, hb1, hb2⟩
    rw [hH.2.1] at hb2
    obtain ⟨st, hst, h⟩ := List.mem_map.mp hb2
    simp only [fin_inj] at h
    exact ⟨st, hst, by rw [h]; exact hb1⟩
  have e1 : posterior e us u a s = postReturn e.resample us u a p := by
    unfold posterior
    simp only [hp0, hp1, bind, Except.bind]
  refine ⟨_, ls, if a.returnLogw then ls.map fun l => Real.log (weight H 1 l / totalWeight H 1) else relWeights H ls,
    e1.trans (by simp only [postReturn, hr]; rfl), by rw [hp2]; exact hkl, ?_, by rw [hp2]; simpa using hlen, ?_, ?_⟩
  · rw [hp2]
    cases a.returnLogw <;> simp [Function.comp_def]
  · rw [hp2]
    cases a.returnLogw <;> simp [relWeights, hlen]
  · intro i j l l' w w' h1 h2 h3 h4
    cases hlw : a.returnLogw with
    | false =>
      simp only [hlw, Bool.false_eq_true, if_false, relWeights, List.getElem?_map, h1, h2, Option.map_some, Option.some.injEq] at h3 h4
      subst h3 h4
      exact ⟨fun h => div_le_div_of_nonneg_right (weight_mono H hR.1 1 hβ h) hpos.le,
        fun hb' h => div_lt_div_of_pos_right (weight_strict H 1 hβ (hstr hb') h) hpos⟩
    | true =>
      simp only [hlw, if_true, List.getElem?_map, h1, h2, Option.map_some, Option.some.injEq] at h3 h4
      subst h3 h4
      have hw := fun l => div_pos (weight_pos H hR.1 1 l) htot
      exact ⟨fun h => Real.log_le_log (hw l) (div_le_div_of_nonneg_right (weight_mono H hR.1 1 hβ h) htot.le),
        fun hb' h => Real.log_lt_log (hw l) (div_lt_div_of_pos_right (weight_strict H 1 hβ (hstr hb') h) htot)⟩

end
end Poco

namespace Poco.Demo
open F Spec Classical

/-- The run with a likelihood that is not constant (`within147`), read with the default arguments: it is cut at one value, and the
weights follow the likelihood. -/
example : ∃ fuel s', (run env114 rnd fuel (iterationBound 0 1 0.5 true 2 start.nEffective 100 + 1) ⟨100, 0, none⟩ start).2 = .ok s' ∧
    (∃ (all : List (Row 2 (List Unit))) (t : ℝ) (out : PostOut 2 Unit), AllRows false s'.particles.past all ∧
      posterior env114 (fun _ => 0) 0 PostArgs.default s' = .ok out ∧ (∃ r ∈ all, r.logl = fin t) ∧
      out.samples = (all.filter fun r => reaches t r.logl).map (·.x)) ∧
    ∃ (out : PostOut 2 Unit) (ls ws : List ℝ), posterior env114 (fun _ => 0) 0 PostArgs.default s' = .ok out ∧
      out.logl = ls.map fin ∧ out.weights = some (ws.map fin) ∧
      ∀ (i j : ℕ) (l l' w w' : ℝ), ls[i]? = some l → ls[j]? = some l' → ws[i]? = some w → ws[j]? = some w' → l ≤ l' → w ≤ w' := by
  obtain ⟨fuel, s', h1, h2, -, h4, -⟩ := within147
  have hx : s'.particles.past.x ≠ [] := by
    obtain ⟨its, hi⟩ := h2.inv user114 (configured true) (ll := step114) (lp := fun _ => fin 0) (bb := fun _ => [()])
    rw [hi.past] at h4 ⊢
    simpa [columns] using h4
  obtain ⟨all, t, out, k1, k2, k3, k4, -⟩ := C148_trim user114 proper114 (configured true) h2 hx (fun _ => 0) 0 PostArgs.default rfl rfl 0.99 rfl
    (by norm_num) (by simp [PostArgs.default]) (fun h => by cases h)
  obtain ⟨out', ls, ws, g1, g2, g3, -, -, g4⟩ := C148_weights user114 proper114 (configured true) h2 hx (fun _ => 0) 0 PostArgs.default rfl
    (fun _ => ⟨0.99, rfl, by norm_num, by simp [PostArgs.default]⟩) (fun h => by cases h)
  exact ⟨fuel, s', h1, ⟨all, t, out, k1, k2, k3, k4⟩, out', ls, ws, g1, g2, g3, fun i j l l' w w' a b c d => (g4 i j l l' w w' a b c d).1⟩

end Poco.Demo
