import Verif.Props.Counts
import Verif.Props.Resample

/-! A run does not raise (C75). -/

namespace Poco
open F Spec

variable {d : ℕ} {B Φ : Type}

/-- The numerical libraries do their part: geometry fits, flow training, matrix inversion and factorisation return; uniform
draws are in [0, 1).  Settings: a random walk needs at least two parameters, a preconditioned sampler a positive training
frequency, and the dynamic ratio is a number. -/
structure Spec.Reliable (e : SamplerEnv d B Φ) (rnd : Rnd d Φ) : Prop where
  geo : ∀ t us ws, ∃ g, rnd.geoFit t us ws = .ok g
  flow : ∀ t φ us ws, ∃ φ', rnd.flowFit t φ us ws = .ok φ'
  inv : ∀ m, ∃ r, e.inv m = .ok r
  chol : ∀ m, ∃ r, e.chol m = .ok r
  dim : e.sample = .rwm → d ≠ 1
  freq : e.preconditioned = true → e.trainFrequency ≠ 0
  ratio : ∃ r, e.dynamicRatio = fin r
  mult : ∀ t k, 0 ≤ rnd.mult t k ∧ rnd.mult t k < 1
  syst : ∀ t, 0 ≤ rnd.syst t ∧ rnd.syst t < 1

theorem sizeAt_nonneg (m : Metric) {h : List Stage} {n : ℕ} (hr : Rect h n) (β : ℝ) : 0 ≤ sizeAt m h β := by
  have hw := weights_isWeights hr β
  cases m with
  | ess => exact div_nonneg (sq_nonneg _) (List.sum_nonneg (by
      intro x hx
      obtain ⟨y, -, rfl⟩ := List.mem_map.mp hx
      positivity))
  | uss =>
    have : 1 ≤ (allLogl h).length := List.length_pos_iff.mpr hr.allLogl_ne
    exact le_trans zero_le_one (distinct_ge_one hw this)

/-- The temperature is found (also for a target of 0). -/
theorem chooseBeta_total {past : Cols d (List B) List} {h : List Stage} {k : ℕ} (hr : Rect h k) (hh : Holds past h)
    (m : Metric) (N : ℕ) {b z : ℝ} (hb : b ≤ 1) (hlast : h.getLast?.map (fun s => (s.beta, s.logz)) = some (b, z)) :
    ∃ fuel₀, ∀ fuel, fuel₀ ≤ fuel → ∃ β logz : ℝ,
      chooseBeta past m (F.ofNat N) fuel = .ok (fin β, fin logz, fin (sizeAt m h β)) := by
  rcases Nat.eq_zero_or_pos N with rfl | hN
  · obtain ⟨s, hs, hs2⟩ := Option.map_eq_some_iff.mp hlast
    simp only [Prod.mk.injEq] at hs2
    have l1 : getAt past.beta (-1) = .ok (fin b) := by
      apply getAt_neg_one
      rw [hh.2.1, List.getLast?_map, hs]; simp [hs2.1]
    have l2 : getAt past.logz (-1) = .ok (fin z) := by
      apply getAt_neg_one
      rw [hh.2.2, List.getLast?_map, hs]; simp [hs2.2]
    refine ⟨0, fun fuel _ => ?_⟩
    simp only [chooseBeta, l1, l2, essAt_fin past h k hr hh, computeLogwLogz_fin past h k hr hh, bind, Except.bind, pure,
      Except.pure, ge_iff_le, F.fin_le, F.ofNat, Nat.cast_zero]
    split_ifs with c1 c2
    · exact ⟨b, z, rfl⟩
    · exact ⟨1, _, rfl⟩
    · exact absurd (sizeAt_nonneg m hr 1) c2
  · obtain ⟨f0, hf⟩ := C22_beta_search past h k hr hh m N (by exact_mod_cast hN) b z hb hlast
    refine ⟨f0, fun fuel hfu => ?_⟩
    obtain ⟨β, lz, h1, -⟩ := hf fuel hfu
    exact ⟨β, lz, h1⟩

theorem gather_total {α : Type} (l : List α) (idx : List ℕ) (h : ∀ i ∈ idx, i < l.length) : ∃ out, gather l idx = .ok out := by
  refine ⟨idx.filterMap (l[·]?), ?_⟩
  unfold gather
  induction idx with
  | nil => rfl
  | cons i idx ih =>
    rw [List.mapM_cons, ih fun j hj => h j (by simp [hj])]
    have hi := h i (by simp)
    simp [List.getElem?_eq_getElem hi, bind, Except.bind, pure, Except.pure]

theorem gatherCur_total {n : ℕ} {hb : Bool} {P : Row d (List B) → Prop} {its : List (Iter d (List B))} (hne : its ≠ [])
    (hits : ∀ it ∈ its, HasRows n hb P it) (c : Cur d B) (idx : List ℕ) (w : List F) (beta logz ess : F)
    (hidx : ∀ i ∈ idx, i < its.length * n) : ∃ c', gatherCur (columns its) hb c idx w beta logz ess = .ok c' := by
  obtain ⟨rows, f1, f2, f3, f4, f5, fP, fl, f6, rs, f7, f8⟩ := flat_rows its hne hits
  obtain ⟨out, ho⟩ := gather_total rows idx (by rw [fl]; exact hidx)
  unfold gatherCur
  simp only [f1, f2, f3, f4, f5, gather_map, ho, bind, Except.bind, Except.map, pure, Except.pure]
  cases hb with
  | false => exact ⟨_, rfl⟩
  | true =>
    have hrs : rs ≠ [] := by
      rintro rfl
      simp at f8
      exact hne f8
    simp only [if_true] at f8 ⊢
    rw [f6, f8, flatBlobs_rows rs hrs, ← f7]
    simp only [gather_map, ho, Except.map]
    exact ⟨_, rfl⟩

section
variable {e : SamplerEnv d B Φ} {ll lp : Pt d → F} {bb : Pt d → List B} {hb : Bool} {s : Sampler d B Φ} {rnd : Rnd d Φ}
  {its : List (Iter d (List B))}

theorem resampleIdx_total (hrel : Reliable e rnd) (t : ℕ) (w : List ℝ) (hw : IsWeights w) (h1 : w.sum = 1) :
    ∃ idx, resampleIdx e rnd t (w.map fin) = .ok idx ∧ ∀ i ∈ idx, i < w.length := by
  unfold resampleIdx
  cases e.resample with
  | mult =>
    obtain ⟨l, g1, g2⟩ := C12_multinomial w hw (by rw [h1]; simp [sqrtEps]) ((List.range e.nActive).map (rnd.mult t))
      (by
        intro u hu
        obtain ⟨k, -, rfl⟩ := List.mem_map.mp hu
        exact hrel.mult t k)
    refine ⟨l, g1, fun i hi => ?_⟩
    obtain ⟨j, hj, rfl⟩ := List.mem_iff_getElem.mp hi
    have := List.Forall₂.get g2 (by rw [g2.length_eq]; exact hj) hj
    obtain ⟨x, hx, -⟩ := this
    exact (List.getElem?_eq_some_iff.mp hx).1
  | syst =>
    obtain ⟨l, g1, -, g2, -⟩ := C08_systematic e.nActive w hw (.inl h1) (rnd.syst t) (hrel.syst t).1 (hrel.syst t).2
    exact ⟨l, g1, g2⟩

theorem kernelEnv_total (hrel : Reliable e rnd) (s : Sampler d B Φ) (beta : F)
    (hg : (if e.preconditioned then s.thetaGeometry else s.uGeometry).isSome = true) :
    ∃ k, kernelEnv e s beta = .ok k := by
  obtain ⟨g, hg⟩ := Option.isSome_iff_exists.mp hg
  unfold kernelEnv
  simp only [hg, orErr, bind, Except.bind]
  obtain ⟨a, ha⟩ : ∃ a, kernelInv e (kernelOf e.preconditioned e.sample) g = .ok a := by
    unfold kernelInv
    split
    · exact hrel.inv _
    · exact ⟨_, rfl⟩
  obtain ⟨b, hb⟩ : ∃ b, kernelChol e (kernelOf e.preconditioned e.sample) g = .ok b := by
    unfold kernelChol
    split
    · exact hrel.chol _
    · rename_i hk
      have : e.sample = .rwm := by
        cases hs : e.sample
        · rw [hs] at hk; cases hp : e.preconditioned <;> rw [hp] at hk <;> simp [kernelOf, Kern.isPcn] at hk
        · rfl
      unfold cholNormal
      rw [if_neg (hrel.dim this)]
      exact hrel.chol _
  rw [ha]
  simp only [hb]
  exact ⟨_, rfl⟩

theorem train_total (hrel : Reliable e rnd) (s : Sampler d B Φ) (c : Cur d B) (hw : c.weights.isSome = true)
    (hg : s.flowUntrained = false → s.thetaGeometry.isSome = true) :
    ∃ s', train e rnd s c = .ok s' ∧ (if e.preconditioned then s'.thetaGeometry else s'.uGeometry).isSome = true := by
  obtain ⟨w, hw⟩ := Option.isSome_iff_exists.mp hw
  unfold train
  simp only [hw, orErr, bind, Except.bind, pure, Except.pure]
  unfold trainNow
  cases hp : e.preconditioned with
  | false =>
    obtain ⟨g, hg'⟩ := hrel.geo s.t c.it.u w
    simp [hg']
  | true =>
    simp only [Bool.not_true, Bool.false_eq_true, if_false, if_neg (hrel.freq hp), if_true]
    cases hb : (decide (s.t % e.trainFrequency = 0) || decide (feq c.it.beta (fin 1)) || s.flowUntrained) with
    | true =>
      obtain ⟨φ, hφ⟩ := hrel.flow s.t s.flow c.it.u w
      obtain ⟨g, hg'⟩ := hrel.geo s.t (c.it.u.map fun u => (e.flowFwd φ u).1) w
      simp [hφ, hg']
    | false =>
      obtain ⟨g, hg'⟩ := hrel.geo s.t c.it.u w
      have : s.flowUntrained = false := by
        cases hf : s.flowUntrained
        · rfl
        · rw [hf] at hb; simp at hb
      simp [hg', hg this]

/-- The history as real numbers. -/
theorem Inv.stages (hc : Configured e) (h : Inv e ll lp bb hb s its) (hp : ProperLike ll) (hne : its ≠ []) :
    ∃ (H : List Stage) (b z : ℝ), Holds s.particles.past H ∧ Rect H e.nActive ∧ b ≤ 1 ∧ 0 ≤ b ∧
      H.getLast?.map (fun s => (s.beta, s.logz)) = some (b, z) ∧ (∃ c, s.cur = some c ∧ its.getLast? = some c.it ∧ c.it.beta = fin b) ∧
      H.length = its.length := by
  obtain ⟨bs, b1, b2, b3⟩ := h.betas
  obtain ⟨H, h1, h2, h3, h4⟩ := holds_of hc.1 hne h.rows (fun r hr => hr.2.2 hp) b1 (h.logz hp)
  obtain ⟨st, hst⟩ : ∃ st, H.getLast? = some st := ⟨_, List.getLast?_eq_getLast_of_ne_nil h2.1⟩
  obtain ⟨it, hit⟩ : ∃ it, its.getLast? = some it := ⟨_, List.getLast?_eq_getLast_of_ne_nil hne⟩
  have hcur := h.cur
  rw [hit] at hcur
  obtain ⟨c, hc1, hc2⟩ := Option.map_eq_some_iff.mp hcur
  obtain ⟨b, hb1, hb2⟩ := getLast_beta hit b1
  have hbb : st.beta = b := by
    have := congrArg List.getLast? h3
    rw [List.getLast?_map, hst, hb1] at this
    simpa using this
  refine ⟨H, b, st.logz, by rw [h.past]; exact h1, h2, (b3 b (List.mem_of_getLast? hb1)).2, (b3 b (List.mem_of_getLast? hb1)).1, by simp [hst, hbb], ⟨c, hc1, by rw [hit, hc2], by rw [hc2, hb2]⟩, ?_⟩
  have := congrArg List.length h4
  simpa using this.symm

theorem Spec.Rect.length {H : List Stage} {n : ℕ} (h : Rect H n) : (allLogl H).length = H.length * n := by
  obtain ⟨-, -, h⟩ := h
  unfold allLogl
  induction H with
  | nil => simp
  | cons a H ih =>
    simp only [List.flatMap_cons, List.length_append, List.length_cons]
    rw [ih fun s hs => h s (by simp [hs]), h a (by simp)]
    ring

/-- The main part of an iteration, for any fuel with which the temperature search returns. -/
theorem Inv.smcStep_of_beta (hu : UserFns e ll lp bb hb) (hc : Configured e) (hrel : Reliable e rnd) (h : Inv e ll lp bb hb s its)
    {H : List Stage} (hH : Holds s.particles.past H) (hR : Rect H e.nActive) (hlen : H.length = its.length) (hne : its ≠ [])
    {fuel : ℕ} {β lz : ℝ} {es : F}
    (hbeta : chooseBeta s.particles.past e.metric (F.ofNat s.nEffective) fuel = .ok (fin β, fin lz, es)) :
    ∃ s', smcStep e rnd fuel s = .ok s' ∧ s'.particles.past.beta = s.particles.past.beta ++ [fin β] ∧
      s'.particles.past.logz = s.particles.past.logz ++ [fin lz] := by
  obtain ⟨it, hit⟩ : ∃ it, its.getLast? = some it := ⟨_, List.getLast?_eq_getLast_of_ne_nil hne⟩
  have hcur := h.cur
  rw [hit] at hcur
  obtain ⟨c, hc1, hc2⟩ := Option.map_eq_some_iff.mp hcur
  obtain ⟨r, hr⟩ := hrel.ratio
  obtain ⟨n', w1, -⟩ := C23_reweight e { s with t := s.t + 1 } H e.nActive hR hH hc.1 r hr β
  set w := weights H β with hw
  have hW : IsWeights w := weights_isWeights hR β
  have hwl : w.length = its.length * e.nActive := by
    rw [hw]; unfold weights; rw [List.length_map, hR.length, hlen]
  have hWn : IsWeights (w.map (· / w.sum)) := hW.normalize
  obtain ⟨tr, t1, kept, t2, t3, t4, t5, t6, -⟩ := C05_trim (List.range w.length) (w.map (· / w.sum)) hWn (by simp) 0.99 (by norm_num) 1000 (by norm_num)
  have t1' : trimWeights (List.range (w.map (fun x => fin (x / w.sum))).length) (w.map (fun x => fin (x / w.sum))) (fin 0.99) 1000 = .ok tr := by
    rw [List.map_map] at t1
    rw [List.length_map]
    exact t1
  have hsub : ∀ i ∈ tr.samples, i < its.length * e.nActive := by
    intro i hi
    rw [t4] at hi
    obtain ⟨q, hq, rfl⟩ := List.mem_map.mp hi
    have := (List.of_mem_zip (t2.subset hq)).1
    rw [List.mem_range, hwl] at this
    exact this
  obtain ⟨c1, g1⟩ := gatherCur_total hne h.rows c tr.samples tr.weights (fin β) (fin lz) es hsub
  have hcb : hb = false → c.it.blobs = none := by
    intro hf
    obtain ⟨rows, -, r2, -⟩ := h.rows c.it (by rw [hc2]; exact List.mem_of_getLast? hit)
    rw [r2.blobs, hf]; rfl
  have hhb := h.blobs hne
  obtain ⟨⟨rows1, q0, q1, q2⟩, qw, -, -, -, -, -, -, qb, qz, -⟩ := gatherCur_ok hne h.rows hcb g1
  have hrew : reweight e fuel s c = .ok ({ s with t := s.t + 1, nEffective := n' }, c1) := by
    unfold reweight
    simp only [hbeta, bind, Except.bind, pure, Except.pure]
    rw [w1]
    simp only [t1']
    simp only [h.past, hhb, g1]
  obtain ⟨s2, tr1, tr2⟩ := train_total hrel { s with t := s.t + 1, nEffective := n' } c1 (by rw [qw]; rfl) h.geo
  have hs2 : s2.haveBlobs = hb ∧ s2.scaler = s.scaler ∧ s2.particles = s.particles := by
    rcases train_ok tr1 with ⟨-, flow, g, rfl⟩ | ⟨-, g, rfl⟩ <;> exact ⟨hhb, rfl, rfl⟩
  obtain ⟨t1b, t2s, t3p⟩ := hs2
  have hkl : kept.length = rows1.length := by rw [q0, t4, List.length_map]
  obtain ⟨idx, i1, i2⟩ := resampleIdx_total hrel s2.t (kept.map fun q => q.2 / (kept.map (·.2)).sum) (by
    have := t3.normalize
    rw [List.map_map] at this
    exact this) t6
  have i1' : resampleIdx e rnd s2.t tr.weights = .ok idx := by
    rw [t5]
    rw [List.map_map] at i1
    exact i1
  obtain ⟨out, ho⟩ := gather_total rows1 idx (by
    intro i hi
    have := i2 i hi
    rw [List.length_map, hkl] at this
    exact this)
  have hres : ∃ c2, resampleStep e rnd s2 c1 = .ok c2 := by
    unfold resampleStep
    simp only [qw, orErr, bind, Except.bind, i1', q1.u, q1.x, q1.logdetj, q1.logl, q1.logp, gather_map, ho, Except.map, resampleBlobs, t1b]
    have hbl := q1.blobs
    cases hb with
    | false => exact ⟨_, rfl⟩
    | true =>
      simp only [if_true] at hbl ⊢
      rw [hbl]
      simp only [orErr, gather_map, ho, Except.map]
      exact ⟨_, rfl⟩
  obtain ⟨c2, hres⟩ := hres
  obtain ⟨⟨rows2, -, p2, p3⟩, -, -, -, -, -, -, -, pb, pz, -⟩ := resampleStep_ok t1b q1 q2 hres
  obtain ⟨k, hk⟩ := kernelEnv_total hrel s2 c2.it.beta tr2
  obtain ⟨-, ks, -⟩ := kernelEnv_ok hk
  have hrow := kernelEnv_rowwise hu t1b hk
  have hok : s.scaler.Ok := by
    cases hps : s.priorSamples with
    | none => exact absurd (h.noPrior hps) hne
    | some ps => exact (h.prior ps hps).1
  obtain ⟨res, m1, -⟩ := C28_terminates k (by rw [ks, t2s]; exact h.bounds) (by
      rw [ks, t2s]
      intro hsc
      obtain ⟨a, ha, -⟩ := hok.2 hsc
      rw [ha]; simp) ll lp bb hrow fuel (rnd.mcmc s2.t) (rows2.map (·.walker hb))
  have hmut : mutate e rnd fuel s2 c2 = .ok (writeBack s2 c2 res) := by
    unfold mutate
    rw [t1b, toWalkers_rows p2]
    simp only [bind, Except.bind, hk, m1]
    rfl
  refine ⟨_, by
    unfold smcStep
    rw [hc1]
    simp only [orErr, bind, Except.bind, hrew, tr1, hres, hmut]
    rfl, ?_, ?_⟩
  · simp only [writeBack, Particles.update, Cols.full, t3p, Option.toList_some, pb, qb]
  · simp only [writeBack, Particles.update, Cols.full, t3p, Option.toList_some, pz, qz]

/-- C75, one iteration: in every state with at least one stored iteration, an iteration of the main loop returns. -/
theorem Inv.smcStep_total (hu : UserFns e ll lp bb hb) (hc : Configured e) (hrel : Reliable e rnd) (hp : ProperLike ll)
    (h : Inv e ll lp bb hb s its) (hne : its ≠ []) :
    ∃ fuel₀, ∀ fuel, fuel₀ ≤ fuel → ∃ s', smcStep e rnd fuel s = .ok s' := by
  obtain ⟨H, b, z, hH, hR, hb1, -, hl, -, hlen⟩ := h.stages hc hp hne
  obtain ⟨f0, hf⟩ := chooseBeta_total hR hH e.metric s.nEffective hb1 hl
  refine ⟨f0, fun fuel hfu => ?_⟩
  obtain ⟨β, lz, hb⟩ := hf fuel hfu
  obtain ⟨s', h1, -⟩ := h.smcStep_of_beta hu hc hrel hH hR hlen hne hb
  exact ⟨s', h1⟩

/-- A computation that did not raise: it returned, or it is still running when the step budget of the model is used up. -/
def Spec.NoRaise {α : Type} (r : Except PyErr α) : Prop := (∃ a, r = .ok a) ∨ r = .error .diverged

theorem bisect_noRaise {past : Cols d (List B) List} {H : List Stage} {k : ℕ} (hr : Rect H k) (hh : Holds past H) (m : Metric)
    (N : F) (fuel : ℕ) : ∀ a b : ℝ, NoRaise (bisect past m N fuel (fin a) (fin b)) := by
  induction fuel with
  | zero => intro a b; exact .inr rfl
  | succ n ih =>
    intro a b
    simp only [bisect, mid_fin, essAt_fin past H k hr hh]
    split_ifs
    · exact .inl ⟨_, rfl⟩
    · exact ih _ _
    · exact ih _ _

theorem chooseBeta_noRaise {past : Cols d (List B) List} {H : List Stage} {k : ℕ} (hr : Rect H k) (hh : Holds past H)
    (m : Metric) (N : F) (fuel : ℕ) {b z : ℝ} (hb : b ≤ 1) (hlast : H.getLast?.map (fun s => (s.beta, s.logz)) = some (b, z)) :
    (∃ (β lz : ℝ) (es : F), chooseBeta past m N fuel = .ok (fin β, fin lz, es)) ∨
      chooseBeta past m N fuel = .error .diverged := by
  obtain ⟨s, hs, hs2⟩ := Option.map_eq_some_iff.mp hlast
  simp only [Prod.mk.injEq] at hs2
  have l0 : past.beta.getLast? = some (fin b) := by rw [hh.2.1, List.getLast?_map, hs]; simp [hs2.1]
  have l1 : getAt past.beta (-1) = .ok (fin b) := getAt_neg_one l0
  have l2 : getAt past.logz (-1) = .ok (fin z) := by
    apply getAt_neg_one
    rw [hh.2.2, List.getLast?_map, hs]; simp [hs2.2]
  have key : NoRaise (chooseBeta past m N fuel) := by
    simp only [chooseBeta, l1, l2, essAt_fin past H k hr hh, computeLogwLogz_fin past H k hr hh, bind, Except.bind, pure,
      Except.pure]
    split_ifs with c1 c2
    · exact .inl ⟨_, rfl⟩
    · exact .inl ⟨_, rfl⟩
    · rcases bisect_noRaise hr hh m N fuel b 1 with ⟨⟨β, es⟩, h1⟩ | h1
      · obtain ⟨β', e1, -⟩ := bisect_between past m N fuel b 1 hb _ h1
        simp only at e1
        rw [h1]
        simp only [e1, computeLogwLogz_fin past H k hr hh]
        exact .inl ⟨_, rfl⟩
      · rw [h1]
        exact .inr rfl
  rcases key with ⟨⟨β, lz, es⟩, h1⟩ | h1
  · obtain ⟨β', rfl, -⟩ := C21_beta_step past m N fuel b hb l0 _ _ _ h1
    obtain ⟨z', rfl⟩ := chooseBeta_logz hr hh b hb l0 h1
    exact .inl ⟨β', z', es, h1⟩
  · exact .inr h1

theorem Inv.smcStep_noRaise (hu : UserFns e ll lp bb hb) (hc : Configured e) (hrel : Reliable e rnd) (hp : ProperLike ll)
    (h : Inv e ll lp bb hb s its) (hne : its ≠ []) (fuel : ℕ) : NoRaise (smcStep e rnd fuel s) := by
  obtain ⟨H, b, z, hH, hR, hb1, -, hl, ⟨c, hcur, -⟩, hlen⟩ := h.stages hc hp hne
  rcases chooseBeta_noRaise hR hH e.metric (F.ofNat s.nEffective) fuel hb1 hl with ⟨β, lz, es, hb⟩ | hb
  · obtain ⟨s', h1, -⟩ := h.smcStep_of_beta hu hc hrel hH hR hlen hne hb
    exact .inl ⟨s', h1⟩
  · right
    unfold smcStep reweight
    simp only [hcur, orErr, bind, Except.bind, hb]

theorem Inv.notTermination_total (hc : Configured e) (hp : ProperLike ll) (h : Inv e ll lp bb hb s its) (hne : its ≠ []) :
    ∃ r, notTermination e s = .ok r := by
  obtain ⟨H, b, z, hH, hR, -, -, -, ⟨c, hcur, -⟩, -⟩ := h.stages hc hp hne
  unfold notTermination
  simp only [essAt_fin _ H _ hR hH, hcur, orErr, bind, Except.bind]
  exact ⟨_, rfl⟩

theorem save_total {k : Option ℕ} (hk : k ≠ some 0) (t0 : ℕ) (s : Sampler d B Φ) : (Trace.save k t0 s).2 = .ok s := by
  unfold Trace.save saveNow
  cases k with
  | none => rfl
  | some k =>
    have : k ≠ 0 := fun h => hk (by rw [h])
    simp only [if_neg this]
    split_ifs <;> rfl

theorem andThen_noRaise {t : Trace d B Φ} {f : Sampler d B Φ → Trace d B Φ} (h : NoRaise t.2)
    (hf : ∀ s', t.2 = .ok s' → NoRaise (f s').2) : NoRaise (t.andThen f).2 := by
  obtain ⟨l, r⟩ := t
  cases r with
  | ok s1 => exact hf s1 rfl
  | error x => exact h

theorem andThen_of_ok {t : Trace d B Φ} {f : Sampler d B Φ → Trace d B Φ} {s s' : Sampler d B Φ} (h : t.2 = .ok s)
    (hf : (f s).2 = .ok s') : (t.andThen f).2 = .ok s' := by
  obtain ⟨l, r⟩ := t
  simp only at h
  subst h
  exact hf

theorem Inv.smcLoop_noRaise (hu : UserFns e ll lp bb hb) (hc : Configured e) (hrel : Reliable e rnd) (hp : ProperLike ll)
    {k : Option ℕ} (hk : k ≠ some 0) (t0 fuel : ℕ) (n : ℕ) : ∀ (s : Sampler d B Φ) (its : List (Iter d (List B))),
    Draws s.scaler.low s.scaler.high rnd → s.warmup = false → Inv e ll lp bb hb s its → its ≠ [] →
    NoRaise (smcLoop e rnd fuel k t0 n s).2 := by
  induction n with
  | zero =>
    intro s its hd hw h hne
    unfold smcLoop
    obtain ⟨r, hr⟩ := h.notTermination_total hc hp hne
    cases r <;> simp only [hr]
    · exact .inl ⟨_, rfl⟩
    · exact .inr rfl
  | succ n ih =>
    intro s its hd hw h hne
    unfold smcLoop
    obtain ⟨r, hr⟩ := h.notTermination_total hc hp hne
    cases r <;> simp only [hr]
    · exact .inl ⟨_, rfl⟩
    · refine andThen_noRaise (.inl ⟨s, save_total hk t0 s⟩) fun s1 h1 => ?_
      rw [save_ok h1]
      refine andThen_noRaise (h.smcStep_noRaise hu hc hrel hp hne fuel) fun s2 h2 => ?_
      obtain ⟨it, k1, k2⟩ := h.smc hu hc hd hw h2
      exact ih s2 _ (by rw [k2]; exact hd) ((smcStep_keep h2).1.trans hw) k1 (by simp)

/-- Every warm-up batch contains a point whose log-likelihood is not infinite. -/
def Spec.Supported (e : SamplerEnv d B Φ) (ll : Pt d → F) (ps : List (Pt d)) : Prop :=
  ∀ i < e.nPrior / e.nActive, ∃ x ∈ (ps.drop (i * e.nActive)).take e.nActive, (ll x).isinf = false

theorem Inv.warmupStep_total (hu : UserFns e ll lp bb hb) (hc : Configured e) (h : Inv e ll lp bb hb s its) {ps : List (Pt d)}
    (hps : s.priorSamples = some ps) {i : ℕ} (hi : i < e.nPrior / e.nActive)
    (hx : ∃ x ∈ (ps.drop (i * e.nActive)).take e.nActive, (ll x).isinf = false) :
    ∃ s', warmupStep e rnd s i = .ok s' ∧
      ∃ qs, s'.priorSamples = some qs ∧ qs.drop ((i + 1) * e.nActive) = ps.drop ((i + 1) * e.nActive) := by
  obtain ⟨hok, xs, rfl, x2, x3⟩ := h.prior ps hps
  obtain ⟨x, hx1, hx2⟩ := hx
  have hne : (xs.drop (i * e.nActive)).take e.nActive ≠ [] := by
    intro hcon
    rw [← List.map_drop, ← List.map_take, hcon] at hx1
    simp at hx1
  obtain ⟨b0, rows, k1, k2, k3, k4⟩ := warmupBatch_ok hu hok hps x3 i hne
  have hhb : (s.haveBlobs || hb) = hb := by
    cases hv : s.haveBlobs
    · rfl
    · rw [h.blobs' hv]; rfl
  rw [hhb] at k1
  have hxm : x ∈ rows.map (·.x) := by
    rw [← k2.x, k3, List.map_take, List.map_drop]; exact hx1
  obtain ⟨r, hr, hrx⟩ := List.mem_map.mp hxm
  obtain ⟨b', rows', r1, r2, r3, -⟩ := (replace_isinf hb b0 rows k2 (rnd.warm s.t)).2
    (.inl ⟨r, hr, by rw [(k4 r hr).1.2.2.1]; rw [hrx]; exact hx2⟩)
  refine ⟨_, by
    unfold warmupStep
    rw [k1]
    simp only [bind, Except.bind, r1]
    rfl, writeSlice (xs.map pt) (i * e.nActive) b'.x, by simp only [hps, Option.map_some], ?_⟩
  have e1 : (i + 1) * e.nActive = i * e.nActive + e.nActive := by ring
  have hle : (i + 1) * e.nActive ≤ e.nPrior := (Nat.le_div_iff_mul_le hc.1).mp hi
  have hl : b'.x.length = e.nActive := by
    rw [replaceInf_length r1, k3, List.length_map, List.length_take, List.length_drop]
    omega
  have := writeSlice_drop (xs.map pt) b'.x (i * e.nActive) (by rw [List.length_map]; omega)
  rw [hl, ← e1] at this
  exact this

theorem Inv.warmupLoop_total (hu : UserFns e ll lp bb hb) (hc : Configured e)
    {k : Option ℕ} (hk : k ≠ some 0) (t0 : ℕ) (ps : List (Pt d)) (n : ℕ) :
    ∀ (i : ℕ) (s : Sampler d B Φ) (its : List (Iter d (List B))),
    i + n ≤ e.nPrior / e.nActive → (∀ j, i ≤ j → j < e.nPrior / e.nActive →
      ∃ x ∈ (ps.drop (j * e.nActive)).take e.nActive, (ll x).isinf = false) →
    s.warmup = true → Inv e ll lp bb hb s its → (∃ qs, s.priorSamples = some qs ∧ qs.drop (i * e.nActive) = ps.drop (i * e.nActive)) →
    ∃ s' its', (warmupLoop e rnd k t0 n i s).2 = .ok s' ∧ Inv e ll lp bb hb s' its' ∧ its'.length = its.length + n ∧
      its <+: its' ∧ s'.scaler = s.scaler := by
  induction n with
  | zero => intro i s its _ _ _ h _; exact ⟨s, its, rfl, h, rfl, List.prefix_rfl, rfl⟩
  | succ n ih =>
    intro i s its hi hx hw h hq
    obtain ⟨qs, q1, q2⟩ := hq
    have hxi := hx i le_rfl (by omega)
    rw [← q2] at hxi
    obtain ⟨s2, w1, q', w2, w3⟩ := h.warmupStep_total (rnd := rnd) hu hc q1 (by omega) hxi
    obtain ⟨it, v1, v2⟩ := h.warmStep hu hc hw (by omega) w1
    have e1 : (i + 1) * e.nActive = i * e.nActive + e.nActive := by ring
    obtain ⟨s', its', z1, z2, z3, z4, z5⟩ := ih (i + 1) s2 (its ++ [it]) (by omega) (fun j hj hj' => hx j (by omega) hj')
      ((warmupStep_warmup w1).1.trans hw) v1 ⟨q', w2, by
        rw [w3, e1, ← List.drop_drop, q2, List.drop_drop]⟩
    refine ⟨s', its', ?_, z2, by rw [z3]; simp; omega, (List.prefix_append _ _).trans z4, z5.trans v2⟩
    unfold warmupLoop
    exact andThen_of_ok (save_total hk t0 s) (andThen_of_ok (t := Trace.lift _) w1 z1)

theorem Inv.runInit_total (hc : Configured e) (hd : Draws s.scaler.low s.scaler.high rnd) (h : Inv e ll lp bb hb s its) (a : RunArgs) :
    ∃ s', runInit e rnd a s = .ok s' ∧ s'.priorSamples = some (s.priorSamples.getD (rnd.prior e.nPrior)) ∧ s'.warmup = s.warmup := by
  unfold runInit
  cases hps : s.priorSamples with
  | some ps =>
    simp only [hps, Option.getD_some]
    exact ⟨_, rfl, rfl, rfl⟩
  | none =>
    obtain ⟨xs, x1, x2, x3, x4⟩ := hd.prior e.nPrior
    have hpos : 1 < e.nPrior := hc.2.2
    obtain ⟨sc', f1, f2, -⟩ := C41_fit_standardises s.scaler h.bounds h.scale xs x3
      (by rintro rfl; simp at x2; omega) (x4 hpos)
    rw [← x1] at f1
    simp only [hps, f1, bind, Except.bind, Option.getD_none]
    exact ⟨_, rfl, rfl, rfl⟩

/-- The beginning of a run: everything before the main loop. -/
theorem Inv.start_total (hu : UserFns e ll lp bb hb) (hc : Configured e) (hd : Draws s.scaler.low s.scaler.high rnd)
    (h : Inv e ll lp bb hb s its) (a : RunArgs) (hk : a.saveEvery ≠ some 0)
    (hsup : s.warmup = true → Supported e ll (s.priorSamples.getD (rnd.prior e.nPrior)))
    (hne : s.warmup = false → its ≠ []) :
    ∃ s1 s2 its', runInit e rnd a s = .ok s1 ∧ (runWarmup e rnd a s.t s1).2 = .ok s2 ∧ Inv e ll lp bb hb s2 its' ∧
      its' ≠ [] ∧ its <+: its' ∧ s2.warmup = false ∧ s2.scaler.low = s.scaler.low ∧ s2.scaler.high = s.scaler.high ∧
      (s.warmup = true → its'.length = its.length + e.nPrior / e.nActive) := by
  obtain ⟨s1, i1, i2, i3⟩ := h.runInit_total hc hd a
  obtain ⟨j1, j2, j3⟩ := h.init hc hd i1
  cases hw : s.warmup with
  | false =>
    refine ⟨s1, s1, its, i1, ?_, j1, hne hw, List.prefix_rfl, i3.trans hw, j2, j3, by simp⟩
    unfold runWarmup
    rw [i3, hw]
    rfl
  | true =>
    obtain ⟨s2, its', z1, z2, z3, z4, z5⟩ := Inv.warmupLoop_total (rnd := rnd) hu hc hk s.t _ (e.nPrior / e.nActive) 0 s1 its
      (by omega) (fun j _ hj => hsup hw j hj) (i3.trans hw) j1 ⟨_, i2, rfl⟩
    have hW : 1 ≤ e.nPrior / e.nActive := Nat.div_pos hc.2.1 hc.1
    refine ⟨s1, { s2 with warmup := false }, its', i1, ?_, ?_, ?_, z4, rfl, ?_, ?_, fun _ => z3⟩
    · unfold runWarmup
      rw [i3, hw, if_pos rfl, if_neg (by have := hc.1; omega)]
      exact andThen_of_ok z1 rfl
    · exact ⟨z2.past, z2.rows, z2.cur, z2.betas, z2.logz, z2.blobs, z2.blobs', z2.bounds, z2.scale, z2.noPrior, z2.prior, z2.geo,
        fun hh => by cases hh⟩
    · rintro rfl; simp at z3; omega
    · simp only [z5, j2]
    · simp only [z5, j3]

theorem Inv.finalEvidence_total (hu : UserFns e ll lp bb hb) (hc : Configured e) (hp : ProperLike ll)
    (h : Inv e ll lp bb hb s its) (hne : its ≠ []) : ∃ s', finalEvidence e rnd s = .ok s' := by
  unfold finalEvidence
  split_ifs with hif
  · have hok : s.scaler.Ok := by
      cases hps : s.priorSamples with
      | none => exact absurd (h.noPrior hps) hne
      | some ps => exact (h.prior ps hps).1
    have hinv : ∃ inv, s.scaler.inverse ((rnd.flowSample s.t s.flow s.nEvidence).map (·.1)) = .ok inv := by
      unfold Scaler.inverse
      refine mapM_exists (fun u => ?_) _
      obtain ⟨x, ld, hx⟩ := inverseRow_ok s.scaler (fun hsc => by
        obtain ⟨a, ha, -⟩ := hok.2 hsc
        rw [ha]; simp) u
      exact ⟨_, hx⟩
    obtain ⟨inv, hinv⟩ := hinv
    unfold computeEvidence
    simp only [hinv, bind, Except.bind]
    by_cases hx : keepFinite (e.logPrior (inv.map (·.1))) (inv.map (·.1)) = []
    · rw [hx, hu.nothing]; exact ⟨_, rfl⟩
    · rw [hu.like _ hx]; exact ⟨_, rfl⟩
  · obtain ⟨H, b, z, hH, hR, -⟩ := h.stages hc hp hne
    simp only [computeLogwLogz_fin _ H _ hR hH, bind, Except.bind]
    exact ⟨_, rfl⟩

theorem Inv.run_noRaise (hu : UserFns e ll lp bb hb) (hc : Configured e) (hd : Draws s.scaler.low s.scaler.high rnd)
    (hrel : Reliable e rnd) (hp : ProperLike ll) (h : Inv e ll lp bb hb s its) (a : RunArgs) (hk : a.saveEvery ≠ some 0)
    (hsup : s.warmup = true → Supported e ll (s.priorSamples.getD (rnd.prior e.nPrior)))
    (hne : s.warmup = false → its ≠ []) (fuel n : ℕ) : NoRaise (run e rnd fuel n a s).2 := by
  obtain ⟨s1, s2, its', h1, h2, h3, h4, h5, h6, h7, h8, -⟩ := h.start_total hu hc hd a hk hsup hne
  unfold run
  dsimp only
  refine andThen_noRaise (.inl ⟨_, h1⟩) fun s1' h1' => ?_
  have : s1' = s1 := by
    change runInit e rnd a s = .ok s1' at h1'
    rw [h1] at h1'; simpa using h1'.symm
  subst this
  refine andThen_noRaise (.inl ⟨_, h2⟩) fun s2' h2' => ?_
  have : s2' = s2 := by rw [h2] at h2'; simpa using h2'.symm
  subst this
  have hd2 : Draws s2'.scaler.low s2'.scaler.high rnd := by rw [h7, h8]; exact hd
  refine andThen_noRaise (Inv.smcLoop_noRaise hu hc hrel hp hk s.t fuel n s2' its' hd2 h6 h3 h4) fun s3 h3' => ?_
  have hm := ((Along.smcLoop fuel a.saveEvery s.t n s2' h6).1.to_end s3 h3').1
  obtain ⟨more, v1, -⟩ := h3.moves hu hc hd2 hm
  obtain ⟨s4, h4'⟩ := v1.finalEvidence_total (rnd := rnd) hu hc hp (by simp [h4])
  exact andThen_noRaise (.inl ⟨s4, h4'⟩) fun s5 _ => .inl ⟨s5, rfl⟩

end

/-! ### C75 -/

/-- C75: a run does not raise.  For a log-likelihood that is a number or -inf everywhere, numerical libraries that do their
part, a positive `save_every` and warm-up batches that each contain a point of non-infinite likelihood: whatever the state
of the session (new, resumed, or after other runs, provided something is stored if the warm-up is over), and whatever the
number of iterations looked at, `run` has returned or is still running. -/
theorem C75_no_exception (e : SamplerEnv d B Φ) (ll lp : Pt d → F) (bb : Pt d → List B) (hb : Bool) (hu : UserFns e ll lp bb hb)
    (hc : Configured e) (hp : ProperLike ll) (s : Sampler d B Φ) (hs : Session e hb s) (rnd : Rnd d Φ)
    (hd : Draws s.scaler.low s.scaler.high rnd) (hrel : Reliable e rnd) (a : RunArgs) (hk : a.saveEvery ≠ some 0)
    (hsup : s.warmup = true → Supported e ll (s.priorSamples.getD (rnd.prior e.nPrior)))
    (hne : s.warmup = false → s.particles.past.x ≠ []) (fuel n : ℕ) :
    (∃ s', (run e rnd fuel n a s).2 = .ok s') ∨ (run e rnd fuel n a s).2 = .error .diverged := by
  obtain ⟨its, hi⟩ := hs.inv hu hc (ll := ll) (lp := lp) (bb := bb)
  refine hi.run_noRaise hu hc hd hrel hp a hk hsup (fun hw hcon => hne hw ?_) fuel n
  rw [hi.past, hcon]
  rfl

/-- C75, each iteration ends: in every state a run passes through that has something stored, there is a number of
bisections after which one iteration of the main loop (temperature, training, resampling, MCMC) has returned. -/
theorem C75_iteration_returns (e : SamplerEnv d B Φ) (ll lp : Pt d → F) (bb : Pt d → List B) (hb : Bool)
    (hu : UserFns e ll lp bb hb) (hc : Configured e) (hp : ProperLike ll) (s s1 : Sampler d B Φ) (hs : Session e hb s)
    (rnd : Rnd d Φ) (hd : Draws s.scaler.low s.scaler.high rnd) (hrel : Reliable e rnd) (hm : Moves e rnd s s1)
    (hne : s1.particles.past.x ≠ []) :
    ∃ fuel₀, ∀ fuel, fuel₀ ≤ fuel → ∃ s', smcStep e rnd fuel s1 = .ok s' := by
  obtain ⟨its, hi⟩ := hs.inv hu hc (ll := ll) (lp := lp) (bb := bb)
  obtain ⟨more, hi', -⟩ := hi.moves hu hc hd hm
  refine hi'.smcStep_total hu hc hrel hp fun hcon => hne ?_
  rw [hi'.past, hcon]
  rfl

end Poco
