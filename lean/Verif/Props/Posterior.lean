import Verif.Model.Posterior
import Verif.Props.Total

/-! `posterior` (C61, C62) and the evidence (C59, C60). -/

namespace Poco
open F Spec

variable {d : ℕ} {B Φ : Type}

/-- All particles of a history, in storage order. -/
structure Spec.AllRows (hb : Bool) (past : Cols d (List B) List) (rows : List (Row d (List B))) : Prop where
  x : past.x.flatten = rows.map (·.x)
  logl : past.logl.flatten = rows.map (·.logl)
  logp : past.logp.flatten = rows.map (·.logp)
  blobs : hb = true → (past.blobs.map (·.getD [])).flatten = rows.map (·.blob)

/-- The importance weights of particles with these log-likelihoods, relative to their own total. -/
noncomputable def Spec.relWeights (H : List Stage) (ls : List ℝ) : List ℝ :=
  ls.map fun l => weight H 1 l / (ls.map (weight H 1)).sum

theorem gather_of_mem {α β : Type} (l : List α) (T : List (ℕ × β)) (g : ℕ × β → α) (h : ∀ p ∈ T, l[p.1]? = some (g p)) :
    gather l (T.map (·.1)) = .ok (T.map g) := by
  unfold gather
  induction T with
  | nil => rfl
  | cons p T ih =>
    rw [List.map_cons, List.mapM_cons, ih fun q hq => h q (by simp [hq])]
    simp [h p (by simp), bind, Except.bind, pure, Except.pure]

/-- A selection of weights by index is a selection of rows with their weights. -/
theorem select_rows {α : Type} (rows : List α) (W : List ℝ) (hl : rows.length = W.length) (kept : List (ℕ × ℝ))
    (hk : kept.Sublist ((List.range rows.length).zip W)) :
    ∃ q : List (α × ℝ), q.Sublist (rows.zip W) ∧ kept.map (·.2) = q.map (·.2) ∧ gather rows (kept.map (·.1)) = .ok (q.map (·.1)) := by
  have hz : (List.range rows.length).zip W = ((List.range rows.length).zip (rows.zip W)).map fun p => (p.1, p.2.2) := by
    apply List.ext_getElem
    · simp [hl]
    · intro i h1 h2
      simp
  rw [hz] at hk
  obtain ⟨T, hT, rfl⟩ := List.sublist_map_iff.mp hk
  refine ⟨T.map (·.2), ?_, by simp, ?_⟩
  · have := hT.map (·.2)
    rwa [List.map_snd_zip (by simp)] at this
  · rw [List.map_map, List.map_map]
    refine gather_of_mem rows T (fun p => p.2.1) fun p hp => ?_
    obtain ⟨i, hi, hp'⟩ := List.mem_iff_getElem.mp (hT.subset hp)
    simp only [List.getElem_zip, List.getElem_range] at hp'
    rw [← hp']
    simp only
    rw [List.getElem?_eq_getElem]

section
variable {e : SamplerEnv d B Φ} {ll lp : Pt d → F} {bb : Pt d → List B} {hb : Bool} {s : Sampler d B Φ}
  {its : List (Iter d (List B))}

/-- What `posterior` computes before it returns. -/
theorem posterior_core (hc : Configured e) (h : Inv e ll lp bb hb s its) (hp : ProperLike ll) (hne : its ≠ []) (a : PostArgs)
    (ha : a.trim = true → ∃ ε : ℝ, a.essTrim = fin ε ∧ ε ≤ 1 ∧ 1 ≤ a.binsTrim) (hbl : a.returnBlobs = true → hb = true) :
    ∃ (H : List Stage) (all kept : List (Row d (List B))) (p0 p : Post d B) (ls : List ℝ),
      Holds s.particles.past H ∧ Rect H e.nActive ∧ AllRows hb s.particles.past all ∧
      all.map (·.logl) = (allLogl H).map fin ∧
      (∀ r ∈ all, r.Belongs s.scaler ll lp bb hb) ∧ kept.Sublist all ∧ (a.trim = false → kept = all) ∧
      kept.map (·.logl) = ls.map fin ∧ kept ≠ [] ∧
      postCollect a s = .ok p0 ∧ postTrim a p0 = .ok p ∧
      p = { samples := kept.map (·.x), weights := (relWeights H ls).map fin,
            logw := ls.map fun l => fin (Real.log (weight H 1 l / totalWeight H 1)), logl := kept.map (·.logl),
            logp := kept.map (·.logp), blobs := if a.returnBlobs then some (kept.map (·.blob)) else none } := by
  obtain ⟨H, b, z, hH, hR, -, -, -, -, hlen⟩ := h.stages hc hp hne
  obtain ⟨all, f1, f2, f3, f4, f5, fP, fl, f6, rs, f7, f8⟩ := flat_rows its hne h.rows
  have hhb := h.blobs hne
  have g : ∀ {α : Type} {l : List (List α)} {r : List α}, getFlat l = .ok r → l.flatten = r := by
    intro α l r h
    unfold getFlat at h
    split_ifs at h
    simpa using h
  have hrs : rs ≠ [] := by
    rintro rfl
    simp at f8
    exact hne f8
  have hall : AllRows hb s.particles.past all := by
    rw [h.past]
    refine ⟨g f2, g f4, g f5, fun hb' => ?_⟩
    subst hb'
    rw [f6, f8, f7, List.map_map]
    simp only [if_true, List.map_flatten]
    congr 1
  have hll : all.map (·.logl) = (allLogl H).map fin := by
    rw [← hall.logl, hH.1]
    simp only [allLogl, List.flatMap_def, List.map_flatten, List.map_map]
    congr 1
  have hlw := computeLogwLogz_fin s.particles.past H e.nActive hR hH 1 true
  simp only [if_true] at hlw
  have ht := totalWeight_pos hR 1
  have hwp := fun l => weight_pos H hR.1 1 l
  set W : List ℝ := (allLogl H).map fun l => weight H 1 l / totalWeight H 1 with hW
  have hWsum : W.sum = 1 := by
    have : W = ((allLogl H).map (weight H 1)).map (· / totalWeight H 1) := by rw [hW, List.map_map]; rfl
    rw [this]
    exact sum_normalized ht.ne'
  have hWw : IsWeights W := by
    refine ⟨fun x hx => ?_, by rw [hWsum]; exact one_pos⟩
    obtain ⟨l, -, rfl⟩ := List.mem_map.mp hx
    exact (div_pos (hwp l) ht).le
  have hlenW : all.length = W.length := by
    have := congrArg List.length hll
    simpa [hW] using this
  have hcol : postCollect a s = .ok (Post.mk (all.map (·.x)) (W.map fin)
      ((allLogl H).map fun l => fin (Real.log (weight H 1 l / totalWeight H 1))) (all.map (·.logl)) (all.map (·.logp))
      (if a.returnBlobs then some (all.map (·.blob)) else none)) := by
    unfold postCollect
    have hg : (a.returnBlobs && !s.haveBlobs) = false := by
      cases hr : a.returnBlobs
      · rfl
      · rw [hhb, hbl hr]; rfl
    have hpb : postBlobs a.returnBlobs s.particles.past = .ok (if a.returnBlobs then some (all.map (·.blob)) else none) := by
      unfold postBlobs
      cases hr : a.returnBlobs
      · rfl
      · have := hbl hr
        subst this
        simp only [if_true] at f8 ⊢
        rw [h.past, f6, f8, flatBlobs_rows rs hrs, ← f7]
        rfl
    have e1 : ((allLogl H).map fun l => fin (Real.log (weight H 1 l) - Real.log (totalWeight H 1)))
        = (allLogl H).map fun l => fin (Real.log (weight H 1 l / totalWeight H 1)) := by
      apply List.map_congr_left
      intro l _
      rw [Real.log_div (hwp l).ne' ht.ne']
    have e2 : ((allLogl H).map fun l => fin (Real.log (weight H 1 l / totalWeight H 1))).map exp = W.map fin := by
      rw [hW, List.map_map, List.map_map]
      apply List.map_congr_left
      intro l _
      simp only [Function.comp, exp_fin]
      rw [Real.exp_log (div_pos (hwp l) ht)]
    rw [if_neg (by rw [hg]; simp)]
    simp only [hlw, hpb, bind, Except.bind, pure, Except.pure]
    rw [h.past]
    simp only [f2, f4, f5, e1, e2]
  cases htr : a.trim with
  | false =>
    refine ⟨H, all, all, _, _, allLogl H, hH, hR, hall, hll, fun r hr => (fP r hr).1, List.Sublist.refl _, fun _ => rfl, hll, ?_, hcol, ?_, rfl⟩
    · rintro rfl
      simp at hll
      exact hR.allLogl_ne hll
    · unfold postTrim
      rw [htr]
      rfl
  | true =>
    obtain ⟨ε, ha1, ha2, ha3⟩ := ha htr
    obtain ⟨tr, t1, kept, t2, t3, t4, t5, t6, -⟩ := C05_trim (List.range all.length) W hWw (by simp [hlenW]) ε ha2 a.binsTrim ha3
    obtain ⟨q, q1, q2, q3⟩ := select_rows all W hlenW kept t2
    -- the kept log-likelihoods
    have hzip : all.zip W = (all.zip (allLogl H)).map fun p => (p.1, weight H 1 p.2 / totalWeight H 1) := by
      rw [hW, List.zip_map_right]
      rfl
    rw [hzip] at q1
    obtain ⟨T, hT, rfl⟩ := List.sublist_map_iff.mp q1
    simp only [List.map_map, Function.comp_def] at q2 q3
    have hTl : ∀ p ∈ T, p.1.logl = fin p.2 := by
      intro p hp'
      obtain ⟨i, hi, hp''⟩ := List.mem_iff_getElem.mp (hT.subset hp')
      simp only [List.getElem_zip] at hp''
      rw [← hp'']
      simp only
      have := congrArg (·[i]?) hll
      simp only [List.getElem?_map] at this
      rw [List.length_zip] at hi
      rw [List.getElem?_eq_getElem (by omega), List.getElem?_eq_getElem (by omega)] at this
      simpa using this
    have hTr : (T.map (·.1)).Sublist all := by
      have := hT.map (·.1)
      rwa [List.map_fst_zip (by have := congrArg List.length hll; simp at this; omega)] at this
    have hsum : (kept.map (·.2)).sum = (T.map fun p => weight H 1 p.2).sum / totalWeight H 1 := by
      rw [q2]
      clear * -
      induction T with
      | nil => simp
      | cons p T ih => simp only [List.map_cons, List.sum_cons, ih, add_div]
    have hidx : ∀ {β : Type} (f : Row d (List B) → β), gather (all.map f) tr.samples = .ok (T.map fun p => f p.1) := by
      intro β f
      rw [t4, gather_map, q3]
      simp [Except.map]
    have hlwz : gather ((allLogl H).map fun l => fin (Real.log (weight H 1 l / totalWeight H 1))) tr.samples
        = .ok (T.map fun p => fin (Real.log (weight H 1 p.2 / totalWeight H 1))) := by
      have e3 : ((allLogl H).map fun l => fin (Real.log (weight H 1 l / totalWeight H 1)))
          = (all.map fun r => match r.logl with | fin l => fin (Real.log (weight H 1 l / totalWeight H 1)) | _ => nan) := by
        have : (all.map fun r => match r.logl with | fin l => fin (Real.log (weight H 1 l / totalWeight H 1)) | _ => nan)
            = (all.map (·.logl)).map fun l => match l with | fin l => fin (Real.log (weight H 1 l / totalWeight H 1)) | _ => nan := by
          rw [List.map_map]; rfl
        rw [this, hll, List.map_map]
        rfl
      rw [e3, hidx]
      congr 1
      apply List.map_congr_left
      intro p hp'
      rw [hTl p hp']
    refine ⟨H, all, T.map (·.1), _, _, T.map (·.2), hH, hR, hall, hll, fun r hr => (fP r hr).1, hTr, (fun hf => by cases hf), ?_, ?_, hcol, ?_, rfl⟩
    · rw [List.map_map, List.map_map]
      exact List.map_congr_left fun p hp' => hTl p hp'
    · intro hnil
      have : T = [] := by simpa using hnil
      rw [this] at q2
      have := t3.ne_nil
      exact this q2
    · unfold postTrim
      rw [htr]
      have hgb : gatherBlobs (if a.returnBlobs then some (all.map (·.blob)) else none) tr.samples
          = .ok (if a.returnBlobs then some ((T.map (·.1)).map (·.blob)) else none) := by
        cases a.returnBlobs
        · rfl
        · simp only [if_true, gatherBlobs, hidx, Except.map, List.map_map, Function.comp_def]
      have hwts : tr.weights = (relWeights H (T.map (·.2))).map fin := by
        rw [t5]
        have : kept.map (fun q => fin (q.2 / (kept.map (·.2)).sum)) = (kept.map (·.2)).map fun w => fin (w / (kept.map (·.2)).sum) := by
          rw [List.map_map]; rfl
        rw [this, hsum, q2]
        unfold relWeights
        simp only [List.map_map]
        apply List.map_congr_left
        intro p _
        simp only [Function.comp, fin_inj]
        rw [div_div_div_cancel_right₀ ht.ne']
        congr 1
      simp only [if_true, List.length_map, ha1, t1, hidx, hlwz, hgb, hwts, bind, Except.bind, pure, Except.pure, List.map_map, Function.comp_def]


theorem relWeights_spec {H : List Stage} (hH : H ≠ []) {ls : List ℝ} (hl : ls ≠ []) :
    (∀ w ∈ relWeights H ls, 0 < w) ∧ (relWeights H ls).sum = 1 ∧ (relWeights H ls).length = ls.length := by
  have hpos : 0 < (ls.map (weight H 1)).sum := sum_map_pos ls _ hl fun x _ => weight_pos H hH 1 x
  refine ⟨fun w hw => ?_, ?_, by simp [relWeights]⟩
  · obtain ⟨l, -, rfl⟩ := List.mem_map.mp hw
    exact div_pos (weight_pos H hH 1 l) hpos
  · have : relWeights H ls = (ls.map (weight H 1)).map (· / (ls.map (weight H 1)).sum) := by
      unfold relWeights; rw [List.map_map]; rfl
    rw [this]
    exact sum_normalized hpos.ne'

/-! ### C61 -/

theorem posterior_inv (hp : ProperLike ll) (hc : Configured e) {its : List (Iter d (List B))} (hi : Inv e ll lp bb hb s its)
    (hne : s.particles.past.x ≠ []) (us : ℕ → ℝ) (hus : ∀ k, 0 ≤ us k ∧ us k < 1) (u : ℝ) (h0 : 0 ≤ u) (h1 : u < 1) (a : PostArgs)
    (ha : a.trim = true → ∃ ε : ℝ, a.essTrim = fin ε ∧ ε ≤ 1 ∧ 1 ≤ a.binsTrim) (hbl : a.returnBlobs = true → hb = true) :
    ∃ (H : List Stage) (all kept rows : List (Row d (List B))) (ls : List ℝ) (out : PostOut d B),
      Holds s.particles.past H ∧ AllRows hb s.particles.past all ∧ (∀ r ∈ all, r.Belongs s.scaler ll lp bb hb) ∧
      kept.Sublist all ∧ (a.trim = false → kept = all) ∧ kept ≠ [] ∧ kept.map (·.logl) = ls.map fin ∧
      posterior e us u a s = .ok out ∧
      out.samples = rows.map (·.x) ∧ out.logl = rows.map (·.logl) ∧ out.logp = rows.map (·.logp) ∧
      out.blobs = (if a.returnBlobs then some (rows.map (·.blob)) else none) ∧
      (a.resample = false → rows = kept) ∧
      (a.resample = false → a.returnLogw = false → out.weights = some ((relWeights H ls).map fin) ∧
        (relWeights H ls).length = rows.length ∧ (∀ w ∈ relWeights H ls, 0 < w) ∧ (relWeights H ls).sum = 1) ∧
      (a.resample = true → out.weights = none ∧ rows.length = kept.length ∧ ∀ r ∈ rows, r ∈ kept) := by
  have hne' : its ≠ [] := by
    rintro rfl
    apply hne
    rw [hi.past]; rfl
  obtain ⟨H, all, kept, p0, p, ls, hH, hR, hall, hll, hbel, hsub, htr, hkl, hkn, hp0, hp1, hp2⟩ := posterior_core hc hi hp hne' a ha hbl
  have hls : ls ≠ [] := by
    rintro rfl
    simp at hkl
    exact hkn hkl
  obtain ⟨w1, w2, w3⟩ := relWeights_spec hR.1 hls
  have hlen : ls.length = kept.length := by simpa using (congrArg List.length hkl).symm
  cases hres : a.resample with
  | false =>
    refine ⟨H, all, kept, kept, ls, PostOut.mk (kept.map (·.x)) (some (if a.returnLogw then ls.map fun l => fin (Real.log (weight H 1 l / totalWeight H 1)) else (relWeights H ls).map fin))
        (kept.map (·.logl)) (kept.map (·.logp)) (if a.returnBlobs then some (kept.map (·.blob)) else none),
      hH, hall, hbel, hsub, htr, hkn, hkl, ?_, rfl, rfl, rfl, rfl, fun _ => rfl, fun _ hlw => ⟨?_, by omega, w1, w2⟩,
      (fun h => by cases h)⟩
    · unfold posterior
      simp only [hp0, hp1, bind, Except.bind, postReturn, hres, hp2]
      rfl
    · simp [hlw]
  | true =>
    have hidx : ∃ idx, postIdx e.resample us u p = .ok idx ∧ idx.length = kept.length ∧ ∀ i ∈ idx, i < kept.length := by
      have hW : IsWeights (relWeights H ls) := ⟨fun w hw => (w1 w hw).le, by rw [w2]; exact one_pos⟩
      unfold postIdx
      rw [hp2]
      cases e.resample with
      | mult =>
        obtain ⟨l, g1, g2⟩ := C12_multinomial (relWeights H ls) hW (by rw [w2]; simp [sqrtEps]) ((List.range kept.length).map us) (by
          intro v hv
          obtain ⟨k, -, rfl⟩ := List.mem_map.mp hv
          exact hus k)
        refine ⟨l, by simpa using g1, by simpa using g2.length_eq.symm, fun i hi' => ?_⟩
        obtain ⟨j, hj, rfl⟩ := List.mem_iff_getElem.mp hi'
        obtain ⟨x, hx, -⟩ := List.Forall₂.get g2 (by rw [g2.length_eq]; exact hj) hj
        have := (List.getElem?_eq_some_iff.mp hx).1
        simpa [← hlen, ← w3] using this
      | syst =>
        obtain ⟨l, g1, g3, g2, -⟩ := C08_systematic kept.length (relWeights H ls) hW (.inl w2) u h0 h1
        refine ⟨l, ?_, g3, fun i hi' => by have := g2 i hi'; omega⟩
        simp only [List.length_map, w3, hlen]
        exact g1
    obtain ⟨idx, i1, i2, i3⟩ := hidx
    obtain ⟨rows, hrows⟩ := gather_total kept idx i3
    obtain ⟨r1, r2⟩ := gather_ok hrows
    refine ⟨H, all, kept, rows, ls, PostOut.mk (rows.map (·.x)) none (rows.map (·.logl)) (rows.map (·.logp))
      (if a.returnBlobs then some (rows.map (·.blob)) else none), hH, hall, hbel, hsub, htr, hkn, hkl, ?_, rfl, rfl, rfl, rfl,
      (fun h => by cases h), (fun h => by cases h), fun _ => ⟨rfl, by omega, r2⟩⟩
    unfold posterior
    simp only [hp0, hp1, bind, Except.bind, postReturn, hres, if_true, i1]
    simp only [hp2, gather_map, hrows, Except.map, pure, Except.pure]
    cases a.returnBlobs with
    | false => simp [gatherBlobs]
    | true => simp [gatherBlobs, gather_map, hrows, Except.map]

/-- C61: in any state with stored particles that a sampler can reach, `posterior` returns. The particles used (`kept`) are
stored particles in storage order, all of them without trimming; sample, log-likelihood, log-prior and blob of each row are
those of one particle, and belong to each other. Without resampling the weights returned are positive, one for each row, sum to one, and are
proportional to the mixture importance weights of the rows. With resampling there are as many rows as without, each of
them one of those. -/
theorem C61_posterior (hu : UserFns e ll lp bb hb) (hp : ProperLike ll) (hc : Configured e) (hs : Session e hb s)
    (hne : s.particles.past.x ≠ []) (us : ℕ → ℝ) (hus : ∀ k, 0 ≤ us k ∧ us k < 1) (u : ℝ) (h0 : 0 ≤ u) (h1 : u < 1) (a : PostArgs)
    (ha : a.trim = true → ∃ ε : ℝ, a.essTrim = fin ε ∧ ε ≤ 1 ∧ 1 ≤ a.binsTrim) (hbl : a.returnBlobs = true → hb = true) :
    ∃ (H : List Stage) (all kept rows : List (Row d (List B))) (ls : List ℝ) (out : PostOut d B),
      Holds s.particles.past H ∧ AllRows hb s.particles.past all ∧ (∀ r ∈ all, r.Belongs s.scaler ll lp bb hb) ∧
      kept.Sublist all ∧ (a.trim = false → kept = all) ∧ kept ≠ [] ∧ kept.map (·.logl) = ls.map fin ∧
      posterior e us u a s = .ok out ∧
      out.samples = rows.map (·.x) ∧ out.logl = rows.map (·.logl) ∧ out.logp = rows.map (·.logp) ∧
      out.blobs = (if a.returnBlobs then some (rows.map (·.blob)) else none) ∧
      (a.resample = false → rows = kept) ∧
      (a.resample = false → a.returnLogw = false → out.weights = some ((relWeights H ls).map fin) ∧
        (relWeights H ls).length = rows.length ∧ (∀ w ∈ relWeights H ls, 0 < w) ∧ (relWeights H ls).sum = 1) ∧
      (a.resample = true → out.weights = none ∧ rows.length = kept.length ∧ ∀ r ∈ rows, r ∈ kept) := by
  obtain ⟨its, hi⟩ := hs.inv hu hc (ll := ll) (lp := lp) (bb := bb)
  exact posterior_inv hp hc hi hne us hus u h0 h1 a ha hbl

/-! ### C62 -/

/-- C62: the log-weights and the weights `posterior` returns for the same arguments. Both are returned; weight number `i` is
`exp` of log-weight number `i` divided by a common factor `c ≤ 1`; the factor is 1, so that the log-weights are the logarithms
of the weights, exactly when no particle was dropped. -/
theorem C62_logw (hu : UserFns e ll lp bb hb) (hp : ProperLike ll) (hc : Configured e) (hs : Session e hb s)
    (hne : s.particles.past.x ≠ []) (us : ℕ → ℝ) (u : ℝ) (a : PostArgs) (hr : a.resample = false)
    (ha : a.trim = true → ∃ ε : ℝ, a.essTrim = fin ε ∧ ε ≤ 1 ∧ 1 ≤ a.binsTrim) (hbl : a.returnBlobs = true → hb = true) :
    ∃ (out1 out2 : PostOut d B) (w lw : List ℝ) (c : ℝ),
      posterior e us u { a with returnLogw := false } s = .ok out1 ∧ out1.weights = some (w.map fin) ∧
      posterior e us u { a with returnLogw := true } s = .ok out2 ∧ out2.weights = some (lw.map fin) ∧
      0 < c ∧ c ≤ 1 ∧ w = lw.map (fun l => Real.exp l / c) ∧ w ≠ [] ∧
      (c = 1 ↔ out1.samples.length = s.particles.past.x.flatten.length) ∧ (a.trim = false → c = 1) := by
  obtain ⟨its, hi⟩ := hs.inv hu hc (ll := ll) (lp := lp) (bb := bb)
  have hne' : its ≠ [] := by
    rintro rfl
    apply hne
    rw [hi.past]; rfl
  obtain ⟨H, all, kept, p0, p, ls, hH, hR, hall, hll, hbel, hsub, htr, hkl, hkn, hp0, hp1, hp2⟩ := posterior_core hc hi hp hne' a ha hbl
  have hls : ls ≠ [] := by
    rintro rfl
    simp at hkl
    exact hkn hkl
  have hwp := fun l => weight_pos H hR.1 1 l
  have ht := totalWeight_pos hR 1
  have hpos : 0 < (ls.map (weight H 1)).sum := sum_map_pos ls _ hls fun x _ => hwp x
  have hlsub : ls.Sublist (allLogl H) := by
    have := hsub.map (·.logl)
    rw [hkl, hll] at this
    obtain ⟨l', h1, h2⟩ := List.sublist_map_iff.mp this
    have : ls = l' := (List.map_injective_iff.mpr fun a b h => by simpa using h) h2
    rwa [this]
  have hsum : (ls.map (weight H 1)).sum ≤ totalWeight H 1 ∧ ((ls.map (weight H 1)).sum = totalWeight H 1 → ls.length = (allLogl H).length) := by
    unfold totalWeight
    revert hlsub
    generalize allLogl H = L
    intro hlsub
    clear hkl hls hpos hp2
    induction hlsub with
    | slnil => simp
    | cons x h ih =>
      obtain ⟨i1, i2⟩ := ih
      simp only [List.map_cons, List.sum_cons, List.length_cons]
      have := hwp x
      exact ⟨by linarith, fun h => by linarith⟩
    | cons_cons x h ih =>
      obtain ⟨i1, i2⟩ := ih
      simp only [List.map_cons, List.sum_cons, List.length_cons]
      exact ⟨by linarith, fun h => by rw [i2 (by linarith)]⟩
  have q : ∀ b, posterior e us u { a with returnLogw := b } s = .ok (PostOut.mk (kept.map (·.x))
      (some (if b then ls.map fun l => fin (Real.log (weight H 1 l / totalWeight H 1)) else (relWeights H ls).map fin))
        (kept.map (·.logl)) (kept.map (·.logp)) (if a.returnBlobs then some (kept.map (·.blob)) else none)) := by
    intro b
    unfold posterior
    have e1 : postCollect { a with returnLogw := b } s = .ok p0 := hp0
    have e2 : postTrim { a with returnLogw := b } p0 = .ok p := hp1
    rw [e1]
    simp only [bind, Except.bind]
    rw [e2]
    simp only [postReturn, hr, hp2]
    rfl
  refine ⟨_, _, relWeights H ls, ls.map fun l => Real.log (weight H 1 l / totalWeight H 1),
    (ls.map (weight H 1)).sum / totalWeight H 1, q false, rfl, q true, by simp, div_pos hpos ht, (div_le_one ht).mpr hsum.1, ?_, ?_, ?_, ?_⟩
  · unfold relWeights
    rw [List.map_map]
    apply List.map_congr_left
    intro l _
    simp only [Function.comp]
    rw [Real.exp_log (div_pos (hwp l) ht), div_div_div_cancel_right₀ ht.ne']
  · simpa [relWeights] using hls
  · rw [hall.x, List.length_map, List.length_map, div_eq_one_iff_eq ht.ne']
    have l1 : ls.length = kept.length := by simpa using (congrArg List.length hkl).symm
    have l2 : (allLogl H).length = all.length := by simpa using (congrArg List.length hll).symm
    constructor
    · intro h
      rw [← l1, ← l2, hsum.2 h]
    · intro h
      have : ls = allLogl H := hlsub.eq_of_length (by omega)
      rw [this]; rfl
  · intro hf
    have hk := htr hf
    rw [hk] at hkl
    have : ls = allLogl H := (List.map_injective_iff.mpr fun a b h => by simpa using h) (hkl.symm.trans hll)
    rw [this]
    exact div_self ht.ne'


/-! ### C59 -/

/-- The number a log-density stands for: 0 for `-inf`. -/
noncomputable def Spec.unlog : F → ℝ
  | .fin r => Real.exp r
  | _ => 0

/-- The logarithm of a non-negative number, with `-inf` for 0. -/
noncomputable def Spec.logOf (r : ℝ) : F := if r = 0 then ninf else fin (Real.log r)

theorem logaddexp_ninf_ninf : logaddexp ninf ninf = ninf := by
  have h : feq ninf ninf := trivial
  simp only [logaddexp, h, if_true]
  rfl

theorem logaddexp_fin_ninf (a : ℝ) : logaddexp (fin a) ninf = fin a := by
  have h1 : (fin a - ninf : F) = pinf := rfl
  have h2 : (pinf > (0 : F)) := trivial
  have h3 : ¬ feq (fin a) ninf := fun h => h
  have h4 : (-pinf : F) = ninf := rfl
  simp only [logaddexp, h1, h2, h3, if_true, if_false, h4, exp_ninf, fin_add]
  rw [log_fin _ (by norm_num)]
  simp

theorem logaddexp_logOf {a b : ℝ} (ha : 0 ≤ a) (hb : 0 ≤ b) : logaddexp (logOf a) (logOf b) = logOf (a + b) := by
  unfold logOf
  by_cases h1 : a = 0 <;> by_cases h2 : b = 0
  · simp [h1, h2, logaddexp_ninf_ninf]
  · simp [h1, h2, logaddexp_ninf_fin]
  · simp [h1, h2, logaddexp_fin_ninf]
  · have ha' : 0 < a := lt_of_le_of_ne ha (Ne.symm h1)
    have hb' : 0 < b := lt_of_le_of_ne hb (Ne.symm h2)
    have h3 : a + b ≠ 0 := by positivity
    simp only [h1, h2, h3, if_false, logaddexp_fin, Real.exp_log ha', Real.exp_log hb']

theorem lse_logOf (l : List ℝ) (h : ∀ r ∈ l, 0 ≤ r) : lse (l.map logOf) = logOf l.sum := by
  have : ∀ (l : List ℝ) (a : ℝ), 0 ≤ a → (∀ r ∈ l, 0 ≤ r) → (l.map logOf).foldl logaddexp (logOf a) = logOf (a + l.sum) := by
    intro l
    induction l with
    | nil => intro a _ _; simp
    | cons b l ih =>
      intro a ha hl
      have hb := hl b (by simp)
      rw [List.map_cons, List.foldl_cons, logaddexp_logOf ha hb, ih _ (by linarith) fun r hr => hl r (by simp [hr]), List.sum_cons, add_assoc]
  have h0 : logOf 0 = ninf := by simp [logOf]
  have := this l 0 le_rfl h
  rw [h0, zero_add] at this
  exact this

theorem unlog_nonneg (x : F) : 0 ≤ unlog x := by
  cases x <;> simp [unlog, Real.exp_nonneg]

theorem evidenceOf_map {α : Type} (l : List α) (f1 f2 f3 f4 : α → F) :
    evidenceOf (l.map f1) (l.map f2) (l.map f3) (l.map f4) =
      (l.map (fun x => f1 x + f2 x + f3 x - f4 x), lse (l.map fun x => f1 x + f2 x + f3 x - f4 x) - log (F.ofNat l.length)) := by
  unfold evidenceOf
  simp only [List.zipWith_map, List.zipWith_self, List.length_map]

/-- What a draw `(θ, log q)` of the flow contributes to the evidence: likelihood × prior × Jacobian / flow density. -/
noncomputable def Spec.isWeight (ll lp : Pt d → F) (X : (Fin d → ℝ) → Pt d) (D : (Fin d → ℝ) → ℝ) (q : (Fin d → ℝ) × ℝ) : ℝ :=
  unlog (ll (X q.1)) * unlog (lp (X q.1)) * Real.exp (D q.1) / Real.exp q.2

/-- Is the draw in the support of the prior? -/
noncomputable def Spec.inSupport (lp : Pt d → F) (X : (Fin d → ℝ) → Pt d) (q : (Fin d → ℝ) × ℝ) : Bool := F.isfinite (lp (X q.1))

theorem isWeight_sum (hp' : ProperLike lp) (X : (Fin d → ℝ) → Pt d) (D : (Fin d → ℝ) → ℝ) (qs : List ((Fin d → ℝ) × ℝ)) :
    ((qs.filter (inSupport lp X)).map (isWeight ll lp X D)).sum = (qs.map (isWeight ll lp X D)).sum := by
  induction qs with
  | nil => rfl
  | cons q qs ih =>
    by_cases hq : inSupport lp X q = true
    · rw [List.filter_cons_of_pos hq]
      simp [ih]
    · rw [List.filter_cons_of_neg hq, ih, List.map_cons, List.sum_cons]
      have : isWeight ll lp X D q = 0 := by
        rcases hp' (X q.1) with h | ⟨r, hr'⟩
        · simp [isWeight, h, unlog]
        · exact absurd (by simp [inSupport, hr', isfinite]) hq
      rw [this, zero_add]

/-- Evidence and its error in terms of the logarithms of the weights of the draws in the support of the prior. -/
theorem evidence_weights (hu : UserFns e ll lp bb hb) (hp : ProperLike ll) (hp' : ProperLike lp) (hc : Configured e) (hs : Session e hb s)
    {rnd : Rnd d Φ} (hd : Draws s.scaler.low s.scaler.high rnd) {fuel n : ℕ} {a : RunArgs} {s' : Sampler d B Φ}
    (hr : (run e rnd fuel n a s).2 = .ok s') (hpre : e.preconditioned = true) (hn : 0 < a.nEvidence)
    (qs : List ((Fin d → ℝ) × ℝ)) (hq : rnd.flowSample s'.t s'.flow a.nEvidence = qs.map fun q => (pt q.1, fin q.2)) :
    ∃ (X : (Fin d → ℝ) → Pt d) (D : (Fin d → ℝ) → ℝ), (∀ θ, s'.scaler.inverseRow (pt θ) = .ok (X θ, fin (D θ))) ∧
      let lw := (qs.filter (inSupport lp X)).map fun q => logOf (isWeight ll lp X D q)
      s'.logz = some (lse lw - log (F.ofNat lw.length)) ∧ s'.logzErr = some (bootstrapErr lw a.nEvidence (rnd.boot s'.t)) := by
  obtain ⟨s1, s2, s3, h1, h2, h3, h4⟩ := run_ok hr
  obtain ⟨its, hi⟩ := hs.inv hu hc (ll := ll) (lp := lp) (bb := bb)
  have m1 : Moves e rnd s s1 := .single (.init a h1)
  obtain ⟨w1, w2⟩ := Along.runWarmup (e := e) (rnd := rnd) a s.t s1
  have m2 := (w1.to_end s2 h2).1
  obtain ⟨l1, l2⟩ := Along.smcLoop (e := e) (rnd := rnd) fuel a.saveEvery s.t n s2 (w2 s2 h2)
  have m3 := (l1.to_end s3 h3).1
  obtain ⟨-, hterm⟩ := l2 s3 h3
  obtain ⟨more, hi3, -⟩ := hi.moves hu hc hd ((m1.trans m2).trans m3)
  obtain ⟨ess, k1, k2⟩ := bind_ok hterm
  obtain ⟨c, k2, k3⟩ := bind_ok k2
  have hlast : (its ++ more).getLast? = some c.it := by rw [← hi3.cur, orErr_ok k2]; rfl
  have hne : its ++ more ≠ [] := by rintro h; rw [h] at hlast; simp at hlast
  have hok : s3.scaler.Ok := by
    cases hps : s3.priorSamples with
    | none => exact absurd (hi3.noPrior hps) hne
    | some ps => exact (hi3.prior ps hps).1
  obtain ⟨-, hne3⟩ := run_args h1 h2 h3
  rcases finalEvidence_ok h4 with ⟨g1, g2, h⟩ | ⟨g, -⟩
  swap
  · exact absurd ⟨by rw [hne3]; exact hn, hpre⟩ g
  obtain ⟨inv, ll', bl, hbl, q1, q2, rfl⟩ := computeEvidence_ok h
  have hX : ∀ θ, ∃ (x : Pt d) (ld : ℝ), s3.scaler.inverseRow (pt θ) = .ok (x, fin ld) := fun θ => by
    obtain ⟨x, ld, hx, -⟩ := C36_inverse_inside s3.scaler hok θ
    exact ⟨_, _, hx⟩
  choose X D hXD using hX
  refine ⟨X, D, hXD, ?_⟩
  have hfl : rnd.flowSample s3.t s3.flow s3.nEvidence = qs.map fun q => (pt q.1, fin q.2) := by rw [hne3]; exact hq
  rw [hfl] at q1
  have hinv : inv = qs.map fun q => (X q.1, fin (D q.1)) := by
    have : s3.scaler.inverse ((qs.map fun q => ((pt q.1, fin q.2) : Pt d × F)).map (·.1)) = .ok (qs.map fun q => (X q.1, fin (D q.1))) := by
      unfold Scaler.inverse
      rw [List.map_map, List.mapM_map]
      exact mapM_ok _ _ _ fun q _ => hXD q.1
    rw [this] at q1
    simpa using q1.symm
  subst hinv
  simp only [List.map_map, Function.comp_def] at q2
  rw [hu.prior, List.map_map] at q2
  set S := qs.filter (inSupport lp X) with hS
  have kf : ∀ {α : Type} (g : (Fin d → ℝ) × ℝ → α), keepFinite (qs.map (lp ∘ fun q => X q.1)) (qs.map g) = S.map g := fun g => by
    unfold keepFinite
    rw [List.map_map]
    exact maskSelect_filter (γ := Unit) _ g qs
  rw [kf] at q2
  have hll : ll' = S.map fun q => ll (X q.1) := by
    by_cases hx : S.map (fun q => X q.1) = []
    · rw [hx, hu.nothing] at q2
      simp only [Except.ok.injEq, Prod.mk.injEq] at q2
      rw [← q2.1]
      simp at hx
      simp [hx]
    · rw [hu.like _ hx] at q2
      simp only [Except.ok.injEq, Prod.mk.injEq, List.map_map] at q2
      exact q2.1.symm
  subst hll
  simp only [hfl, List.map_map, Function.comp_def]
  rw [hu.prior, List.map_map]
  simp only [kf, evidenceOf_map, Option.some.injEq]
  have hw : ∀ q ∈ S, ll (X q.1) + lp (X q.1) + fin (D q.1) - fin q.2 = logOf (isWeight ll lp X D q) := by
    intro q hqS
    have hf : F.isfinite (lp (X q.1)) = true := (List.mem_filter.mp hqS).2
    rcases hp' (X q.1) with h | ⟨r, hr'⟩
    · rw [h] at hf; cases hf
    rcases hp (X q.1) with h | ⟨t, ht⟩
    · rw [h]
      simp only [isWeight, h, unlog, zero_mul, zero_div, logOf, if_true, hr']
      rfl
    · have hpos : Real.exp t * Real.exp r * Real.exp (D q.1) / Real.exp q.2 = Real.exp (t + r + D q.1 - q.2) := by
        rw [Real.exp_sub, Real.exp_add, Real.exp_add]
      rw [hr', ht]
      simp only [isWeight, ht, hr', unlog, logOf, fin_add, fin_sub, hpos, (Real.exp_pos _).ne', if_false, Real.log_exp]
  have hmap := List.map_congr_left hw
  constructor
  · rw [List.length_map]
    exact congrArg (fun l => lse l - _) hmap
  · rw [hne3]
    exact congrArg (fun l => bootstrapErr l a.nEvidence (rnd.boot s3.t)) hmap

/-- C59, what the code computes: after a run with preconditioning and `n_evidence > 0`, the evidence is the sum of the weights of the
draws divided by the number of draws *in the support of the prior* (not by the number of draws). `X` and `D` are the map from the flow's space to the
parameters and its log-Jacobian. -/
theorem C59_evidence (hu : UserFns e ll lp bb hb) (hp : ProperLike ll) (hp' : ProperLike lp) (hc : Configured e) (hs : Session e hb s)
    {rnd : Rnd d Φ} (hd : Draws s.scaler.low s.scaler.high rnd) {fuel n : ℕ} {a : RunArgs} {s' : Sampler d B Φ}
    (hr : (run e rnd fuel n a s).2 = .ok s') (hpre : e.preconditioned = true) (hn : 0 < a.nEvidence)
    (qs : List ((Fin d → ℝ) × ℝ)) (hq : rnd.flowSample s'.t s'.flow a.nEvidence = qs.map fun q => (pt q.1, fin q.2)) :
    ∃ (X : (Fin d → ℝ) → Pt d) (D : (Fin d → ℝ) → ℝ), (∀ θ, s'.scaler.inverseRow (pt θ) = .ok (X θ, fin (D θ))) ∧
      let k := qs.countP (inSupport lp X)
      s'.logz = some (if k = 0 then nan else logOf ((qs.map (isWeight ll lp X D)).sum / k)) := by
  obtain ⟨X, D, hXD, hz, -⟩ := evidence_weights hu hp hp' hc hs hd hr hpre hn qs hq
  refine ⟨X, D, hXD, ?_⟩
  simp only at hz ⊢
  rw [hz, Option.some.injEq, List.length_map]
  set S := qs.filter (inSupport lp X) with hS
  have hsum : (S.map (isWeight ll lp X D)).sum = (qs.map (isWeight ll lp X D)).sum := isWeight_sum hp' X D qs
  have hl : lse (S.map fun q => logOf (isWeight ll lp X D q)) = logOf (qs.map (isWeight ll lp X D)).sum := by
    rw [← hsum, ← lse_logOf _ (by
      intro r hr'
      obtain ⟨q, -, rfl⟩ := List.mem_map.mp hr'
      have := unlog_nonneg (ll (X q.1)); have := unlog_nonneg (lp (X q.1))
      unfold isWeight
      positivity), List.map_map]
    rfl
  rw [hl, ← List.countP_eq_length_filter]
  set k := qs.countP (inSupport lp X) with hk
  by_cases hk0 : k = 0
  · have hS0 : S = [] := by
      rw [← List.length_eq_zero_iff, hS, ← List.countP_eq_length_filter]; exact hk0
    rw [hS0] at hsum
    rw [← hsum, hk0]
    simp [logOf, F.ofNat, F.log]
    rfl
  · rw [if_neg hk0]
    have hkpos : (0 : ℝ) < k := by exact_mod_cast Nat.pos_of_ne_zero hk0
    have : log (F.ofNat k) = fin (Real.log k) := log_fin _ hkpos
    rw [this]
    unfold logOf
    by_cases h0 : (qs.map (isWeight ll lp X D)).sum = 0
    · simp [h0]; rfl
    · have : (qs.map (isWeight ll lp X D)).sum / k ≠ 0 := div_ne_zero h0 hkpos.ne'
      simp only [h0, this, if_false, fin_sub]
      rw [Real.log_div h0 hkpos.ne']

/-- C59, the part that is true: when all draws are in the support of the prior the evidence is the average weight of the draws.  Missing for the full claim: the same
with draws outside the support (`C59_overestimates`). -/
theorem C59_average_partial (hu : UserFns e ll lp bb hb) (hp : ProperLike ll) (hp' : ProperLike lp) (hc : Configured e) (hs : Session e hb s)
    {rnd : Rnd d Φ} (hd : Draws s.scaler.low s.scaler.high rnd) {fuel n : ℕ} {a : RunArgs} {s' : Sampler d B Φ}
    (hr : (run e rnd fuel n a s).2 = .ok s') (hpre : e.preconditioned = true) (hn : 0 < a.nEvidence)
    (qs : List ((Fin d → ℝ) × ℝ)) (hq : rnd.flowSample s'.t s'.flow a.nEvidence = qs.map fun q => (pt q.1, fin q.2)) (hlen : qs.length = a.nEvidence)
    (hsup : ∀ q ∈ qs, ∀ x ld, s'.scaler.inverseRow (pt q.1) = .ok (x, ld) → lp x ≠ ninf) :
    ∃ (X : (Fin d → ℝ) → Pt d) (D : (Fin d → ℝ) → ℝ), (∀ θ, s'.scaler.inverseRow (pt θ) = .ok (X θ, fin (D θ))) ∧
      s'.logz = some (logOf ((qs.map (isWeight ll lp X D)).sum / a.nEvidence)) := by
  obtain ⟨X, D, h1, h2⟩ := C59_evidence hu hp hp' hc hs hd hr hpre hn qs hq
  refine ⟨X, D, h1, ?_⟩
  have hk : qs.countP (inSupport lp X) = a.nEvidence := by
    rw [← hlen, List.countP_eq_length]
    intro q hqm
    rcases hp' (X q.1) with h | ⟨r, hr'⟩
    · exact absurd h (hsup q hqm _ _ (h1 q.1))
    · simp [inSupport, hr', isfinite]
  rw [h2]
  rw [hk, if_neg (by omega)]

/-- C59 fails exactly in the other case: if some draw is outside the support and some weight is not zero, the evidence is larger than the logarithm
of the average weight, by the logarithm of (number of draws)/(number of draws in the support). -/
theorem C59_overestimates (hu : UserFns e ll lp bb hb) (hp : ProperLike ll) (hp' : ProperLike lp) (hc : Configured e) (hs : Session e hb s)
    {rnd : Rnd d Φ} (hd : Draws s.scaler.low s.scaler.high rnd) {fuel n : ℕ} {a : RunArgs} {s' : Sampler d B Φ}
    (hr : (run e rnd fuel n a s).2 = .ok s') (hpre : e.preconditioned = true) (hn : 0 < a.nEvidence)
    (qs : List ((Fin d → ℝ) × ℝ)) (hq : rnd.flowSample s'.t s'.flow a.nEvidence = qs.map fun q => (pt q.1, fin q.2)) (hlen : qs.length = a.nEvidence)
    (hout : ∃ q ∈ qs, ∃ x ld, s'.scaler.inverseRow (pt q.1) = .ok (x, ld) ∧ lp x = ninf)
    (hin : ∃ q ∈ qs, ∃ x ld, s'.scaler.inverseRow (pt q.1) = .ok (x, ld) ∧ lp x ≠ ninf ∧ ll x ≠ ninf) :
    ∃ (X : (Fin d → ℝ) → Pt d) (D : (Fin d → ℝ) → ℝ) (k : ℕ), (∀ θ, s'.scaler.inverseRow (pt θ) = .ok (X θ, fin (D θ))) ∧
      0 < k ∧ k < a.nEvidence ∧
      s'.logz = some (fin (Real.log ((qs.map (isWeight ll lp X D)).sum / a.nEvidence) + Real.log (a.nEvidence / k))) := by
  obtain ⟨X, D, h1, h2⟩ := C59_evidence hu hp hp' hc hs hd hr hpre hn qs hq
  obtain ⟨q, hqm, x, ld, hx, hlx, hllx⟩ := hin
  obtain ⟨q', hqm', x', ld', hx', hlx'⟩ := hout
  rw [h1] at hx hx'
  simp only [Except.ok.injEq, Prod.mk.injEq] at hx hx'
  obtain ⟨rfl, -⟩ := hx
  obtain ⟨rfl, -⟩ := hx'
  obtain ⟨r, hr'⟩ := (hp' (X q.1)).resolve_left hlx
  obtain ⟨t, ht⟩ := (hp (X q.1)).resolve_left hllx
  have hk : 0 < qs.countP (inSupport lp X) := List.countP_pos_iff.mpr ⟨q, hqm, by simp [inSupport, hr', isfinite]⟩
  have hk' : qs.countP (inSupport lp X) < a.nEvidence := by
    rw [← hlen]
    refine lt_of_le_of_ne List.countP_le_length fun h => ?_
    have := List.countP_eq_length.mp h q' hqm'
    simp [inSupport, hlx', isfinite] at this
  have hpos : 0 < (qs.map (isWeight ll lp X D)).sum := by
    have hnn : ∀ r ∈ qs.map (isWeight ll lp X D), 0 ≤ r := by
      intro r hr''
      obtain ⟨q, -, rfl⟩ := List.mem_map.mp hr''
      have := unlog_nonneg (ll (X q.1)); have := unlog_nonneg (lp (X q.1))
      unfold isWeight
      positivity
    have h3 := List.single_le_sum hnn (isWeight ll lp X D q) (List.mem_map.mpr ⟨q, hqm, rfl⟩)
    have : 0 < isWeight ll lp X D q := by
      simp only [isWeight, hr', ht, unlog]
      positivity
    linarith
  refine ⟨X, D, _, h1, hk, hk', ?_⟩
  rw [h2]
  have hk2 : (0 : ℝ) < (qs.countP (inSupport lp X) : ℕ) := by exact_mod_cast hk
  have hn2 : (0 : ℝ) < a.nEvidence := by exact_mod_cast hn
  rw [if_neg hk.ne', logOf, if_neg (by positivity), ← Real.log_mul (by positivity) (by positivity), div_mul_div_cancel₀ hn2.ne']

/-! ### C60 -/

/-- C60: without preconditioning or with `n_evidence = 0`, `evidence()` after a run is the SMC estimate and no error: the mean of the mixture importance
weights at temperature 1 of all stored particles. -/
theorem C60_smc_value (hu : UserFns e ll lp bb hb) (hp : ProperLike ll) (hc : Configured e) (hs : Session e hb s)
    {rnd : Rnd d Φ} (hd : Draws s.scaler.low s.scaler.high rnd) {fuel n : ℕ} {a : RunArgs} {s' : Sampler d B Φ}
    (hr : (run e rnd fuel n a s).2 = .ok s') (hno : ¬ (e.preconditioned = true ∧ 0 < a.nEvidence)) :
    ∃ H, Holds s'.particles.past H ∧ Rect H e.nActive ∧
      evidence s' = (some (fin (Real.log (totalWeight H 1 / (allLogl H).length))), none) := by
  obtain ⟨H, b, h1, h2, -⟩ := C24_run_reached hu hp hc hs hd fuel n a hr
  obtain ⟨k1, k2⟩ := C60_which_evidence e rnd fuel n a s s' hr
  have hnone : s'.logzErr = none := by
    cases h : s'.logzErr with
    | none => rfl
    | some _ => exact absurd (k1.mp (by rw [h]; rfl)) hno
  obtain ⟨lw, z, k3, k4⟩ := k2 hnone
  rw [computeLogwLogz_fin _ H _ h2 h1] at k3
  simp only [Except.ok.injEq, Prod.mk.injEq] at k3
  refine ⟨H, h1, h2, ?_⟩
  unfold evidence
  rw [k4, hnone, ← k3.2]

/-- C60: with preconditioning and `n_evidence > 0` there is an error estimate. -/
theorem C60_is_error {rnd : Rnd d Φ} {fuel n : ℕ} {a : RunArgs} {s' : Sampler d B Φ}
    (hr : (run e rnd fuel n a s).2 = .ok s') (hyes : e.preconditioned = true ∧ 0 < a.nEvidence) :
    (evidence s').1.isSome = true ∧ (evidence s').2.isSome = true := by
  obtain ⟨s1, s2, s3, h1, h2, h3, h4⟩ := run_ok hr
  obtain ⟨-, hne⟩ := run_args h1 h2 h3
  rcases finalEvidence_ok h4 with ⟨g1, g2, h⟩ | ⟨g, lw, z, k, rfl⟩
  · obtain ⟨inv, ll', bl, hbl, h1, h2, rfl⟩ := computeEvidence_ok h
    exact ⟨rfl, rfl⟩
  · exact absurd ⟨hne ▸ hyes.2, hyes.1⟩ g

/-! ### C47 -/

/-- C47, the part that is true: a NaN log-likelihood in the history was returned by the user's likelihood for the stored particle; the sampler does not
introduce one. Missing for the full claim: that such a value is rejected (`Demo.C47_not_always` shows that it is not). -/
theorem C47_from_likelihood_partial (hu : UserFns e ll lp bb hb) (hc : Configured e) (hs : Session e hb s)
    (h : nan ∈ s.particles.past.logl.flatten) : ∃ x ∈ s.particles.past.x.flatten, ll x = nan := by
  obtain ⟨its, h1, h2⟩ := C29_run (lp := lp) (ll := ll) (bb := bb) hu hc hs
  rw [h1] at h ⊢
  obtain ⟨l, hl, hm⟩ := List.mem_flatten.mp h
  obtain ⟨it, hit, rfl⟩ := List.mem_map.mp hl
  obtain ⟨rows, -, r2, r3⟩ := h2 it hit
  rw [r2.logl] at hm
  obtain ⟨r, hr, hrn⟩ := List.mem_map.mp hm
  refine ⟨r.x, List.mem_flatten.mpr ⟨it.x, List.mem_map.mpr ⟨it, hit, rfl⟩, ?_⟩, ?_⟩
  · rw [r2.x]; exact List.mem_map.mpr ⟨r, hr, rfl⟩
  · rw [← (r3 r hr).2.2.1]; exact hrn

end

end Poco
