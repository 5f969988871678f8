import Verif.Props.Cut
import Verif.Props.Training

/-! Every iteration starts from the most likely stored particles: property C153. -/

namespace Poco
open F Spec Classical

section
variable {d : ℕ} {B Φ : Type} {e : SamplerEnv d B Φ} {ll lp : Pt d → F} {bb : Pt d → List B} {hb : Bool} {rnd : Rnd d Φ}

theorem exists_least {L : List ℝ} (h : L ≠ []) : ∃ t ∈ L, ∀ l ∈ L, t ≤ l := by
  induction L with
  | nil => exact absurd rfl h
  | cons a L ih =>
    rcases eq_or_ne L [] with rfl | hL
    · exact ⟨a, by simp, by simp⟩
    · obtain ⟨t, h1, h2⟩ := ih hL
      rcases le_total a t with h | h
      · exact ⟨a, by simp, by simpa using fun l hl => h.trans (h2 l hl)⟩
      · exact ⟨t, by simp [h1], by simpa using ⟨h, h2⟩⟩

/-- Trimming weights that grow with the log-likelihood keeps what reaches one value of it. -/
theorem trim_cut (rows : List (Row d (List B))) (hne : rows ≠ []) (hfin : ∀ r ∈ rows, ∃ l, r.logl = fin l) (f : ℝ → ℝ) (hf : Monotone f)
    (hpos : ∀ l, 0 < f l) (ε : ℝ) (hε : ε ≤ 1) (bins : ℕ) (hbins : 1 ≤ bins) :
    ∃ (tr : Trimmed ℕ) (t c : ℝ), trimWeights (List.range rows.length) (rows.map fun r => fin (f (realOf r.logl))) (fin ε) bins = .ok tr ∧
      gather rows tr.samples = .ok (rows.filter fun r => reaches t r.logl) ∧ (∃ r ∈ rows, r.logl = fin t) ∧ 0 < c ∧
      tr.weights = (rows.filter fun r => reaches t r.logl).map fun r => fin (c * f (realOf r.logl)) := by
  set w : List ℝ := rows.map fun r => f (realOf r.logl) with hw
  have hsum : 0 < w.sum := sum_map_pos rows _ hne fun r _ => hpos _
  have hW : IsWeights w := by
    refine ⟨fun x hx => ?_, hsum⟩
    obtain ⟨r, -, rfl⟩ := List.mem_map.mp hx
    exact (hpos _).le
  obtain ⟨tr, i, -, k1, k2, k2', k3, ⟨m, k4, k5⟩, -⟩ := C06_trim_threshold (List.range rows.length) w hW (by simp [hw]) ε hε bins hbins
  have hwn : w.map (· / w.sum) = rows.map fun r => f (realOf r.logl) / w.sum := by
    rw [hw, List.map_map]; rfl
  set wn := w.map (· / w.sum) with hwn'
  set c := Spec.percentile wn (gridPoint bins i) with hc'
  set P : Row d (List B) → Bool := fun r => decide (c ≤ f (realOf r.logl) / w.sum) with hP
  have hgat : gather rows tr.samples = .ok (rows.filter P) := by
    rw [k2, hwn]
    exact gather_filter rows _ fun x => decide (c ≤ x)
  have hkept : keptAt wn bins i = (rows.filter P).map fun r => f (realOf r.logl) / w.sum := by
    unfold keptAt
    rw [← hc', hwn, List.filter_map]
    rfl
  have hPne : rows.filter P ≠ [] := by
    intro hnil
    rw [hkept, hnil] at k4
    cases k4
  obtain ⟨t, ht1, ht2⟩ := exists_least (L := (rows.filter P).map fun r => realOf r.logl) (by simpa using hPne)
  obtain ⟨r0, hr0, hr0t⟩ := List.mem_map.mp ht1
  have hr0' := List.mem_filter.mp hr0
  have hcut : rows.filter P = rows.filter fun r => reaches t r.logl := by
    apply List.filter_congr
    intro r hr'
    obtain ⟨l, hl⟩ := hfin r hr'
    rw [Bool.eq_iff_iff]
    have h2 : reaches t r.logl = true ↔ t ≤ realOf r.logl := by rw [hl]; simp [reaches, realOf]
    rw [h2]
    constructor
    · intro h
      exact ht2 _ (List.mem_map_of_mem (f := fun r : Row d (List B) => realOf r.logl) (List.mem_filter.mpr ⟨hr', h⟩))
    · intro h
      have h3 := hr0'.2
      rw [hP] at h3 ⊢
      simp only [decide_eq_true_eq] at h3 ⊢
      refine h3.trans ?_
      rw [hr0t]
      exact div_le_div_of_nonneg_right (hf h) hsum.le
  have hks : 0 < (keptAt wn bins i).sum := by
    rw [hkept]
    exact sum_map_pos _ _ hPne fun r _ => div_pos (hpos _) hsum
  refine ⟨tr, t, 1 / (w.sum * (keptAt wn bins i).sum), ?_, hcut ▸ hgat, ⟨r0, hr0'.1, ?_⟩, by positivity, ?_⟩
  · rw [← k1, hw, List.map_map]; rfl
  · obtain ⟨l, hl⟩ := hfin r0 hr0'.1
    rw [hl, ← hr0t, hl]
    rfl
  · rw [k2', ← hcut]
    generalize (keptAt wn bins i).sum = S at hks ⊢
    rw [hkept, List.map_map]
    apply List.map_congr_left
    intro r _
    simp only [Function.comp, fin_inj]
    field_simp

/-- C153: at every point of every session, an iteration takes exactly the stored particles whose log-likelihood is at least `t`, for
one value `t` which is the log-likelihood of one of them.  Those particles, with weights that grow with the likelihood, are what the
flow (or, when it is not trained, the geometry) is fitted to, and the `n_active` walkers start at copies of them. -/
theorem C153_step (hu : UserFns e ll lp bb hb) (hp : ProperLike ll) (hc : Configured e) (hdr : ∃ r, e.dynamicRatio = fin r)
    {s0 s s' : Sampler d B Φ} (hs : Session e hb s0) (hd : Draws s0.scaler.low s0.scaler.high rnd) (hm : Moves e rnd s0 s)
    {fuel : ℕ} (h : smcStep e rnd fuel s = .ok s') :
    ∃ (all top start : List (Row d (List B))) (t : ℝ) (f : ℝ → ℝ) (ls : List ℝ) (c' : Cur d B) (k : McmcEnv d (List B))
      (r : McmcResult d (List B)),
      AllRows hb s.particles.past all ∧ s.particles.past.u.flatten = all.map (·.u) ∧
      (∃ q ∈ all, q.logl = fin t) ∧ top = all.filter (fun q => reaches t q.logl) ∧
      -- the fit
      top.map (·.logl) = ls.map fin ∧ Monotone f ∧ (∀ l, 0 < f l) ∧
      (e.preconditioned = true ∧ TrainsAt e.trainFrequency s'.t c'.it.beta s.flowUntrained →
        rnd.flowFit s'.t s.flow (top.map (·.u)) (ls.map fun l => fin (f l)) = .ok s'.flow) ∧
      (¬ (e.preconditioned = true ∧ TrainsAt e.trainFrequency s'.t c'.it.beta s.flowUntrained) →
        ∃ g, rnd.geoFit s'.t (top.map (·.u)) (ls.map fun l => fin (f l)) = .ok g ∧ s'.uGeometry = some g) ∧
      -- the walkers
      start.length = e.nActive ∧ (∀ q ∈ start, q ∈ top) ∧ mcmc k fuel (rnd.mcmc s'.t) (start.map (·.walker hb)) = .ok r ∧
      s'.cur = some c' ∧ c'.it.x = r.walkers.map (·.x) ∧ c'.it.logl = r.walkers.map (·.logl) := by
  obtain ⟨its0, hi0⟩ := hs.inv hu hc (ll := ll) (lp := lp) (bb := bb)
  obtain ⟨more, hi, hl, hh⟩ := hi0.moves hu hc hd hm
  set its := its0 ++ more with hits
  obtain ⟨c, s1, c1, s2, c2, s3, c3, h0, h1, h2, h3, h4, rfl⟩ := smcStep_ok h
  have hne : its ≠ [] := by
    intro hnil
    have := hi.cur
    rw [hnil, h0] at this
    simp at this
  obtain ⟨H, b, z, hH, hR, hb1, hb0, hlast, -, hlen⟩ := hi.stages hc hp hne
  obtain ⟨nEff, beta, logz, ess, W, tr, r1, r2, r3, g, rfl⟩ := reweight_ok h1
  obtain ⟨st, hs1, hs2⟩ := Option.map_eq_some_iff.mp hlast
  simp only [Prod.mk.injEq] at hs2
  have l0 : s.particles.past.beta.getLast? = some (fin b) := by rw [hH.2.1, List.getLast?_map, hs1]; simp [hs2.1]
  obtain ⟨β, rfl, hβ1, hβ2⟩ := C21_beta_step s.particles.past e.metric _ fuel b hb1 l0 _ _ _ r1
  have hβ : ∀ st ∈ H, st.beta ≤ β := by
    obtain ⟨bs, q1, q2, -⟩ := hi.betas
    have hbs : bs = H.map (·.beta) := by
      have : s.particles.past.beta = bs.map fin := by rw [hi.past]; exact q1
      rw [hH.2.1] at this
      have h' := congrArg (List.map realOf) this
      simpa [List.map_map, Function.comp_def, realOf] using h'.symm
    intro st' hst'
    refine le_trans ?_ hβ1
    have hsorted : (H.map (·.beta)).Pairwise (· ≤ ·) := by rw [← hbs]; exact q2
    have hlastb : (H.map (·.beta)).getLast? = some b := by rw [List.getLast?_map, hs1]; simp [hs2.1]
    have hmem : st'.beta ∈ H.map (·.beta) := List.mem_map_of_mem (f := fun s : Stage => s.beta) hst'
    obtain ⟨L, hL⟩ := List.getLast?_eq_some_iff.mp hlastb
    rw [hL] at hsorted hmem
    rcases List.mem_append.mp hmem with hm' | hm'
    · exact (List.pairwise_append.mp hsorted).2.2 _ hm' _ (by simp)
    · simp at hm'; exact hm'.le
  obtain ⟨r', hr'⟩ := hdr
  obtain ⟨n', w1, -⟩ := C23_reweight e { s with t := s.t + 1 } H e.nActive hR hH hc.1 r' hr' β
  rw [w1] at r2
  simp only [Except.ok.injEq, Prod.mk.injEq] at r2
  obtain ⟨rfl, rfl⟩ := r2
  obtain ⟨all, f1, f2, f3, f4, f5, fP, fl, f6, rs, f7, f8⟩ := flat_rows its hne hi.rows
  have hfl : ∀ {α : Type} {l : List (List α)} {r : List α}, getFlat l = .ok r → l.flatten = r := by
    intro α l r h
    unfold getFlat at h
    split_ifs at h
    simpa using h
  have hall : AllRows hb s.particles.past all := by
    rw [hi.past]
    refine ⟨hfl f2, hfl f4, hfl f5, fun hb' => ?_⟩
    subst hb'
    rw [f6, f8, f7, List.map_map]
    simp only [if_true, List.map_flatten]
    congr 1
  have hall_u : s.particles.past.u.flatten = all.map (·.u) := by rw [hi.past]; exact hfl f1
  have hll : all.map (·.logl) = (allLogl H).map fin := by
    rw [← hall.logl, hH.1]
    simp only [allLogl, List.flatMap_def, List.map_flatten, List.map_map]
    congr 1
  have hfin : ∀ q ∈ all, ∃ l, q.logl = fin l := by
    intro q hq
    have : q.logl ∈ (allLogl H).map fin := by rw [← hll]; exact List.mem_map_of_mem (f := fun r : Row d (List B) => r.logl) hq
    obtain ⟨l, -, h⟩ := List.mem_map.mp this
    exact ⟨l, h.symm⟩
  have hls : allLogl H = all.map fun q => realOf q.logl := by
    have : allLogl H = ((allLogl H).map fin).map realOf := by rw [List.map_map]; simp [Function.comp_def, realOf]
    rw [this, ← hll, List.map_map]
    rfl
  have halln : all ≠ [] := by
    intro hnil
    rw [hnil, List.length_nil] at fl
    have : its.length * e.nActive ≠ 0 := Nat.mul_ne_zero (by simpa using hne) (by have := hc.1; omega)
    exact this fl.symm
  have hWs := (weights_isWeights hR β).2
  set T := (weights H β).sum with hT
  have hWf : (weights H β).map (fun x => fin (x / T)) = all.map fun q => fin ((fun l => weight H β l / T) (realOf q.logl)) := by
    unfold weights
    rw [hls, List.map_map, List.map_map]
    rfl
  have hWl : ((weights H β).map (fun x => fin (x / T))).length = all.length := by rw [hWf]; simp
  obtain ⟨tr', t, cc, t1, t2, t3, t4, t5⟩ := trim_cut all halln hfin (fun l => weight H β l / T)
    (fun l l' hll' => div_le_div_of_nonneg_right (weight_mono H hR.1 β hβ hll') hWs.le) (fun l => div_pos (weight_pos H hR.1 β l) hWs)
    0.99 (by norm_num) 1000 (by norm_num)
  rw [hWl, hWf, t1] at r3
  simp only [Except.ok.injEq] at r3
  subst r3
  set top := all.filter fun q => reaches t q.logl with htop
  obtain ⟨g1, g2, g3⟩ := gatherCur_part g
  rw [hall_u, gather_map, t2] at g3
  have g3' : c1.it.u = top.map (·.u) := by
    simp only [Except.map, Except.ok.injEq] at g3
    exact g3.symm
  -- the rows of the current particles
  have hhb := hi.blobs hne
  have hcb : hb = false → c.it.blobs = none := by
    intro hb'
    have hlast' := hi.cur
    rw [h0] at hlast'
    have hmem : c.it ∈ its := List.mem_of_getLast? (by simpa using hlast'.symm)
    obtain ⟨rows, -, hrr, -⟩ := hi.rows _ hmem
    rw [hrr.blobs, hb']; rfl
  have hrows : ∃ rows, IsRows hb c1.it rows ∧ rows = top := by
    have hg := g
    rw [hi.past, hhb] at hg
    unfold gatherCur at hg
    simp only [f1, f2, f3, f4, f5, gather_map, t2, bind, Except.bind, Except.map, pure, Except.pure] at hg
    cases hb with
    | false =>
      simp only [Bool.false_eq_true, if_false, Except.ok.injEq] at hg
      subst hg
      exact ⟨top, ⟨rfl, rfl, rfl, rfl, rfl, by simpa using hcb rfl⟩, rfl⟩
    | true =>
      have hrs : rs ≠ [] := by
        rintro rfl
        simp at f8
        exact hne f8
      simp only [if_true] at f8 hg
      rw [f6, f8, flatBlobs_rows rs hrs, ← f7] at hg
      simp only [gather_map, t2, Except.map, Except.ok.injEq] at hg
      subst hg
      exact ⟨top, ⟨rfl, rfl, rfl, rfl, rfl, by simp [htop]⟩, rfl⟩
  obtain ⟨_, hrows, rfl⟩ := hrows
  have hs2b : s2.haveBlobs = hb := by
    rcases train_ok h2 with ⟨-, _, _, rfl⟩ | ⟨-, _, rfl⟩ <;> exact hhb
  have hs2t : s2.t = s.t + 1 := by
    rcases train_ok h2 with ⟨-, _, _, rfl⟩ | ⟨-, _, rfl⟩ <;> rfl
  obtain ⟨⟨start, p1, p2, p3⟩, -⟩ := resampleStep_ok (P := fun q => q ∈ top) hs2b hrows (fun q hq => hq) h3
  obtain ⟨ws, k, r, m1, -, m3, m4⟩ := mutate_ok h4
  rw [hs2b, toWalkers_rows p2] at m1
  simp only [Except.ok.injEq] at m1
  subst m1
  simp only [writeBack, Prod.mk.injEq] at m4
  obtain ⟨rfl, m5⟩ := m4
  have hb3 : c3.it.beta = c1.it.beta := by
    rw [m5]; exact (resampleStep_beta h3).trans rfl
  obtain ⟨w, v1, v2⟩ := train_fit h2
  rw [g1] at v1
  simp only [Option.some.injEq] at v1
  subst v1
  have htf : top.map (·.logl) = (top.map fun q => realOf q.logl).map fin := by
    rw [List.map_map]
    apply List.map_congr_left
    intro q hq
    obtain ⟨l, hl'⟩ := hfin q (List.mem_filter.mp hq).1
    simp [hl', realOf]
  have htw : tr'.weights = (top.map fun q => realOf q.logl).map fun l => fin (cc * (weight H β l / T)) := by
    rw [t5, List.map_map]; rfl
  refine ⟨all, top, start, t, fun l => cc * (weight H β l / T), top.map fun q => realOf q.logl, c3, k, r, hall, hall_u, t3, rfl, htf,
    fun l l' hll' => mul_le_mul_of_nonneg_left (div_le_div_of_nonneg_right (weight_mono H hR.1 β hβ hll') hWs.le) t4.le,
    fun l => mul_pos t4 (div_pos (weight_pos H hR.1 β l) hWs), ?_, ?_, p1, p3, ?_, rfl, ?_, ?_⟩
  · rintro ⟨u1, u2⟩
    rw [← htw, ← g3']
    rcases v2 with ⟨-, -, flow, gf, t5, t6, rfl⟩ | ⟨t3, gf, t5, rfl⟩
    · exact t5
    · exact absurd ⟨u1, by rw [hb3] at u2; exact u2⟩ t3
  · intro hn
    rw [← htw, ← g3']
    rcases v2 with ⟨u1, u2, flow, gf, t5, t6, rfl⟩ | ⟨t3, gf, t5, rfl⟩
    · exact absurd ⟨u1, by rw [hb3]; exact u2⟩ hn
    · exact ⟨gf, t5, rfl⟩
  · exact m3
  · rw [m5]
  · rw [m5]

end
end Poco

namespace Poco.Demo
open F Spec Classical

/-- The run with a likelihood that is not constant (`env114`) comes to an iteration of the main loop, and the theorem applies to it. -/
example : ∃ (fuel : ℕ) (s s' : Sampler 2 Unit Unit), Session env114 false start ∧ Draws start.scaler.low start.scaler.high rnd ∧
    Moves env114 rnd start s ∧ smcStep env114 rnd fuel s = .ok s' ∧
    ∃ (all : List (Row 2 (List Unit))) (t : ℝ) (start : List (Row 2 (List Unit))), AllRows false s.particles.past all ∧
      (∃ q ∈ all, q.logl = fin t) ∧ start.length = 2 ∧ ∀ q ∈ start, q ∈ all ∧ reaches t q.logl = true := by
  obtain ⟨fuel, s', h1, h2, -, h4, -⟩ := within147
  have hS : Session env114 false start := .fresh fresh114
  have hm := (Along.run fuel _ _ _ |>.to_end _ h1).1
  have hstep : ∃ (fuel : ℕ) (m m' : Sampler 2 Unit Unit), Moves env114 rnd start m ∧ smcStep env114 rnd fuel m = .ok m' := by
    by_contra hno
    have hz : ∀ z ∈ s'.particles.past.beta, z = fin 0 := by
      clear h1 h2 h4
      induction hm with
      | refl => simp [start, Particles.init]
      | @tail s1 s2 hm0 hm ih =>
        refine move_diag (fun p _ => ∀ z ∈ p.beta, z = fin 0) ?_ ?_ hm ih
        · intro q q' i hq hi' z hz
          obtain ⟨b0, hb', b, -, -, rfl⟩ := warmupStep_shape hq
          simp only [Particles.update, Cols.full, warmupIter, Option.toList_some, List.mem_append, List.mem_singleton] at hz
          rcases hz with hz | hz
          · exact hi' z hz
          · exact hz
        · intro fuel hq
          exact absurd ⟨fuel, s1, _, hm0, hq⟩ hno
    obtain ⟨st, b, -, -, g1, g2, -⟩ := C24_run_reached user114 proper114 (configured true) hS draws fuel _ _ h1
    have := hz _ (List.mem_of_getLast? g1)
    simp only [fin_inj] at this
    rw [this] at g2
    norm_num at g2
  obtain ⟨fuel, m, m', k1, k2⟩ := hstep
  obtain ⟨all, top, st, t, f, ls, c', k, r, a1, a2, a3, rfl, a5, a6, a7, a8, a9, a10, a11, -⟩ :=
    C153_step user114 proper114 (configured true) ⟨0.5, rfl⟩ hS draws k1 k2
  exact ⟨fuel, m, m', hS, draws, k1, k2, all, t, st, a1, a3, a10, fun q hq => List.mem_filter.mp (a11 q hq)⟩

end Poco.Demo
