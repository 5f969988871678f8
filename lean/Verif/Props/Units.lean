import Verif.Lemmas.Units

/-! C136: a whole run does not depend on the units of the parameters. -/

namespace Poco
open F Spec

variable {d : ℕ} {B Φ : Type}

/-! ### MCMC -/

noncomputable def unitsEnv (U : Units d) (e : McmcEnv d B) : McmcEnv d B :=
  { e with logLike := fun ys => e.logLike (ys.map U.back)
           logPrior := fun ys => (e.logPrior (ys.map U.back)).map (· + fin (-U.logVolume))
           scaler := unitsScaler U e.scaler }

noncomputable def unitsWalker (U : Units d) (w : Walker d B) : Walker d B :=
  { w with x := U.point w.x, logp := w.logp + fin (-U.logVolume), logdetj := w.logdetj + fin U.logVolume }

noncomputable def unitsResult (U : Units d) (r : McmcResult d B) : McmcResult d B :=
  { r with walkers := r.walkers.map (unitsWalker U), evaluated := r.evaluated.map U.point }

/-- By how much the monitored mean log-posterior changes. -/
noncomputable def monitorChange (U : Units d) (k : Kern) : ℝ := if k.isPcn then -U.logVolume else 0

noncomputable def unitsState (U : Units d) (k : Kern) (st : McmcState d B) : McmcState d B :=
  { st with walkers := st.walkers.map (unitsWalker U), best := st.best + fin (monitorChange U k)
            evaluated := st.evaluated.map U.point }

theorem candidate_units {U : Units d} {e : McmcEnv d B} (hs : Diagonal e.scaler) (fuel : ℕ) (p : Pt d) :
    candidate (unitsEnv U e) fuel p = (candidate e fuel p).map (unitsWalker U) := by
  unfold candidate
  have e1 : (unitsEnv U e).kernel = e.kernel := rfl
  have e2 : (unitsEnv U e).flowInv = e.flowInv := rfl
  have e3 : (unitsEnv U e).scaler = unitsScaler U e.scaler := rfl
  have e4 : (unitsScaler U e.scaler).periodic = e.scaler.periodic := rfl
  have e5 : (unitsScaler U e.scaler).reflective = e.scaler.reflective := rfl
  simp only [e1, e2, e3, e4, e5]
  generalize (if e.kernel.hasFlow = true then e.flowInv p else (p, fin 0)) = q
  obtain ⟨u, ldf⟩ := q
  simp only
  refine bind_shift (inverseRow_units hs u) fun r _ => ?_
  obtain ⟨x, ld⟩ := r
  simp only
  split
  · rw [boundaryRow_units]
    cases e.scaler.boundaryRow fuel x with
    | none => rfl
    | some y =>
      simp only [Option.map_some]
      refine bind_shift_id (forwardRow_units hs y) fun u' _ => ?_
      refine bind_shift (inverseRow_units hs u') fun r _ => ?_
      rfl
  · rfl

theorem maskSelect_map' {α β : Type} (f : α → β) (m : List Bool) (l : List α) :
    maskSelect m (l.map f) = (maskSelect m l).map f := by
  unfold maskSelect
  rw [List.zip_map_right, List.filter_map, List.map_map, List.map_map]
  rfl

theorem isfinite_add_fin (x : F) (k : ℝ) : (x + fin k).isfinite = x.isfinite := by cases x <;> rfl

theorem finiteMask_units (U : Units d) (w : Walker d B) : finiteMask (unitsWalker U w) = finiteMask w := by
  unfold finiteMask unitsWalker
  simp only [isfinite_add_fin]
  congr 1
  rw [Bool.eq_iff_iff]
  simp only [List.all_eq_true, List.mem_ofFn, forall_exists_index, forall_apply_eq_imp_iff, Units.point, newUnit_isfinite]

theorem complete_units (U : Units d) (cands : List (Walker d B)) (logl logp : List F) (blobs : List (Option B)) :
    List.zipWith (fun c (v : F × F × Option B) => ({ c with logl := v.1, logp := v.2.1, blob := v.2.2 } : Walker d B))
        (cands.map (unitsWalker U)) (logl.zip ((logp.map (· + fin (-U.logVolume))).zip blobs)) =
      (List.zipWith (fun c (v : F × F × Option B) => ({ c with logl := v.1, logp := v.2.1, blob := v.2.2 } : Walker d B))
        cands (logl.zip (logp.zip blobs))).map (unitsWalker U) := by
  induction cands generalizing logl logp blobs with
  | nil => rfl
  | cons w ws ih =>
    cases logl with
    | nil => simp
    | cons l logl =>
      cases logp with
      | nil => simp
      | cons q logp =>
        cases blobs with
        | nil => simp
        | cons b blobs =>
          simp only [List.map_cons, List.zip_cons_cons, List.zipWith_cons_cons, ih]
          rfl

theorem evaluate_units (U : Units d) (e : McmcEnv d B) (cands : List (Walker d B)) :
    evaluate (unitsEnv U e) (cands.map (unitsWalker U)) =
      (evaluate e cands).map fun r => (r.1.map (unitsWalker U), r.2.1.map U.point, r.2.2) := by
  unfold evaluate
  have m1 : (cands.map (unitsWalker U)).map finiteMask = cands.map finiteMask := by
    rw [List.map_map]
    exact List.map_congr_left fun w _ => finiteMask_units U w
  have m2 : (cands.map (unitsWalker U)).map (·.x) = (cands.map (·.x)).map U.point := by
    rw [List.map_map, List.map_map]
    rfl
  simp only [m1, m2, maskSelect_map']
  have hp : ∀ xs, (unitsEnv U e).logPrior (xs.map U.point) = (e.logPrior xs).map (· + fin (-U.logVolume)) := by
    intro xs
    show (e.logPrior ((xs.map U.point).map U.back)).map _ = _
    rw [map_back_point]
  have hl : ∀ xs, (unitsEnv U e).logLike (xs.map U.point) = e.logLike xs := by
    intro xs
    show e.logLike ((xs.map U.point).map U.back) = _
    rw [map_back_point]
  rw [hp]
  refine bind_shift (scatter_shift _ _ _) fun logp _ => ?_
  have hm : List.zipWith (fun m lp => m && F.isfinite lp) (cands.map finiteMask) (logp.map (· + fin (-U.logVolume)))
      = List.zipWith (fun m lp => m && F.isfinite lp) (cands.map finiteMask) logp := by
    rw [List.zipWith_map_right]
    simp only [isfinite_add_fin]
  simp only [hm, hl]
  refine bind_shift_id rfl fun r _ => ?_
  refine bind_shift_id rfl fun logl _ => ?_
  refine bind_shift_id rfl fun blobs _ => ?_
  simp only [pure, Except.pure, Except.map, Except.ok.injEq, Prod.mk.injEq, and_true]
  exact complete_units U cands logl logp blobs

theorem shift_pair (x a b : F) (k : ℝ) : x + (a + fin k) - (b + fin k) = x + a - b := by
  rw [← add_assoc, sub_add_fin]

theorem alpha_units (U : Units d) (e : McmcEnv d B) (mu : Pt d) (w p : Walker d B) :
    alpha (unitsEnv U e) mu (unitsWalker U w) (unitsWalker U p) = alpha e mu w p := by
  have : metropolisExponent (unitsEnv U e) mu (unitsWalker U w) (unitsWalker U p) = metropolisExponent e mu w p := by
    unfold metropolisExponent
    have h : (unitsWalker U p).logl * (unitsEnv U e).beta - (unitsWalker U w).logl * (unitsEnv U e).beta +
        (unitsWalker U p).logp - (unitsWalker U w).logp + (unitsWalker U p).logdetj - (unitsWalker U w).logdetj
        = p.logl * e.beta - w.logl * e.beta + p.logp - w.logp + p.logdetj - w.logdetj := by
      simp only [unitsWalker, unitsEnv, shift_pair]
    simp only [h]
    rfl
  unfold alpha
  rw [this]

theorem monitor_units (U : Units d) (k : Kern) (ws : List (Walker d B)) :
    monitor k (ws.map (unitsWalker U)) = monitor k ws + fin (monitorChange U k) := by
  unfold monitor monitorChange
  rw [← mean_shift, List.map_map, List.map_map]
  congr 1
  apply List.map_congr_left
  intro w _
  simp only [Function.comp, unitsWalker]
  by_cases h : k.isPcn = true
  · simp only [h, if_true, add_assoc]
  · simp only [h, if_false]
    have h0 : w.logl + (w.logp + fin (-U.logVolume)) + (w.logdetj + fin U.logVolume)
        = w.logl + w.logp + w.logdetj + (fin (-U.logVolume) + fin U.logVolume) := by abel
    simp [h0]

theorem mcmcStep_units {U : Units d} {e : McmcEnv d B} (hs : Diagonal e.scaler) (fuel : ℕ) (rnd : ℕ → Draw d) (i : ℕ)
    (st : McmcState d B) :
    mcmcStep (unitsEnv U e) fuel rnd i (unitsState U e.kernel st) = (mcmcStep e fuel rnd i st).map (unitsState U e.kernel) := by
  unfold mcmcStep
  have e0 : (unitsState U e.kernel st).walkers = st.walkers.map (unitsWalker U) := rfl
  have e1 : ((unitsState U e.kernel st).walkers.mapIdx fun k w =>
      propose (unitsEnv U e) (unitsState U e.kernel st).sigma (unitsState U e.kernel st).mu w (rnd k))
      = st.walkers.mapIdx fun k w => propose e st.sigma st.mu w (rnd k) := by
    rw [e0, mapIdx_map']
    rfl
  have e2 := mapM_map_map (candidate e fuel) (candidate (unitsEnv U e) fuel) id (unitsWalker U)
    (fun p => candidate_units hs fuel p) (st.walkers.mapIdx fun k w => propose e st.sigma st.mu w (rnd k))
  rw [List.map_id] at e2
  rw [e1]
  refine bind_shift e2 fun cands _ => ?_
  refine bind_shift (evaluate_units U e cands) fun r _ => ?_
  obtain ⟨props, ev, n⟩ := r
  simp only
  have ez : (unitsState U e.kernel st).walkers.zip (props.map (unitsWalker U))
      = (st.walkers.zip props).map fun q => (unitsWalker U q.1, unitsWalker U q.2) := by
    rw [e0, List.zip_map]; rfl
  have ea : (((unitsState U e.kernel st).walkers.zip (props.map (unitsWalker U))).map fun q =>
      alpha (unitsEnv U e) (unitsState U e.kernel st).mu q.1 q.2)
      = (st.walkers.zip props).map fun q => alpha e st.mu q.1 q.2 := by
    rw [ez, List.map_map]
    apply List.map_congr_left
    intro q _
    exact alpha_units U e st.mu q.1 q.2
  have ew : (((unitsState U e.kernel st).walkers.zip (props.map (unitsWalker U))).mapIdx fun k q =>
      if (rnd k).rand < alpha (unitsEnv U e) (unitsState U e.kernel st).mu q.1 q.2 then q.2 else q.1)
      = ((st.walkers.zip props).mapIdx fun k q =>
          if (rnd k).rand < alpha e st.mu q.1 q.2 then q.2 else q.1).map (unitsWalker U) := by
    rw [ez, mapIdx_map', map_mapIdx']
    congr 1
    funext k q
    have : alpha (unitsEnv U e) (unitsState U e.kernel st).mu (unitsWalker U q.1) (unitsWalker U q.2) = alpha e st.mu q.1 q.2 :=
      alpha_units U e st.mu q.1 q.2
    simp only [Function.comp, this]
    split <;> rfl
  rw [ea, ew]
  have em : (unitsEnv U e).kernel = e.kernel := rfl
  rw [em, monitor_units]
  have eb : (unitsState U e.kernel st).best = st.best + fin (monitorChange U e.kernel) := rfl
  rw [eb]
  simp only [gt_iff_lt, add_fin_lt]
  have emu : muNext e.kernel i (unitsState U e.kernel st).mu (((st.walkers.zip props).mapIdx fun k q =>
          if (rnd k).rand < alpha e st.mu q.1 q.2 then q.2 else q.1).map (unitsWalker U))
      = muNext e.kernel i st.mu ((st.walkers.zip props).mapIdx fun k q =>
          if (rnd k).rand < alpha e st.mu q.1 q.2 then q.2 else q.1) := by
    unfold muNext
    split
    · funext j
      rw [List.map_map]
      rfl
    · rfl
  have eev : (unitsState U e.kernel st).evaluated ++ ev.map U.point = (st.evaluated ++ ev).map U.point := by
    rw [List.map_append]; rfl
  rw [emu, eev]
  split <;> rfl

theorem mcmcLoop_units {U : Units d} {e : McmcEnv d B} (hs : Diagonal e.scaler) (fuel : ℕ) (rnd : ℕ → ℕ → Draw d) (i : ℕ)
    (st : McmcState d B) :
    mcmcLoop (unitsEnv U e) fuel rnd i (unitsState U e.kernel st)
      = (mcmcLoop e fuel rnd i st).map fun q => (unitsState U e.kernel q.1, q.2) := by
  induction i, st using mcmcLoop.induct e fuel rnd with
  | case1 i st x hst =>
    rw [mcmcLoop, mcmcStep_units hs, hst]
    conv_rhs => rw [mcmcLoop, hst]
    rfl
  | case2 i st st1 hst hstop =>
    rw [mcmcLoop, mcmcStep_units hs, hst]
    conv_rhs => rw [mcmcLoop, hst]
    simp only [Except.map]
    rw [if_pos (show (unitsState U e.kernel st1).stop = true from hstop), if_pos hstop]
  | case3 i st st1 hst hstop hn =>
    rw [mcmcLoop, mcmcStep_units hs, hst]
    conv_rhs => rw [mcmcLoop, hst]
    simp only [Except.map]
    rw [if_neg (show ¬ (unitsState U e.kernel st1).stop = true from hstop), if_pos (show (unitsEnv U e).nMax ≤ i + 1 from hn),
      if_neg hstop, if_pos hn]
  | case4 i st st1 hst hstop hn ih =>
    rw [mcmcLoop, mcmcStep_units hs, hst]
    conv_rhs => rw [mcmcLoop, hst]
    simp only [Except.map]
    rw [if_neg (show ¬ (unitsState U e.kernel st1).stop = true from hstop), if_neg (show ¬ (unitsEnv U e).nMax ≤ i + 1 from hn),
      if_neg hstop, if_neg hn, ih]
    rfl

theorem mcmc_units {U : Units d} {e : McmcEnv d B} (hs : Diagonal e.scaler) (fuel : ℕ)
    (rnd : ℕ → ℕ → Draw d) (ws : List (Walker d B)) :
    mcmc (unitsEnv U e) fuel rnd (ws.map (unitsWalker U)) = (mcmc e fuel rnd ws).map (unitsResult U) := by
  have h0 : mcmcInit (unitsEnv U e) (ws.map (unitsWalker U)) = unitsState U e.kernel (mcmcInit e ws) := by
    unfold mcmcInit
    simp only [unitsState]
    have hw : (ws.map (unitsWalker U)).map (fun w =>
        if (unitsEnv U e).kernel.hasFlow = true then
          { w with theta := ((unitsEnv U e).flowFwd w.u).1, logdetjFlow := ((unitsEnv U e).flowFwd w.u).2 }
        else { w with theta := w.u, logdetjFlow := fin 0 })
        = (ws.map fun w => if e.kernel.hasFlow = true then
          { w with theta := (e.flowFwd w.u).1, logdetjFlow := (e.flowFwd w.u).2 }
        else { w with theta := w.u, logdetjFlow := fin 0 }).map (unitsWalker U) := by
      rw [List.map_map, List.map_map]
      apply List.map_congr_left
      intro w _
      simp only [Function.comp]
      by_cases h : e.kernel.hasFlow = true
      · rw [if_pos h, if_pos (show (unitsEnv U e).kernel.hasFlow = true from h)]; rfl
      · rw [if_neg h, if_neg (show ¬ (unitsEnv U e).kernel.hasFlow = true from h)]; rfl
    rw [hw]
    have em : (unitsEnv U e).kernel = e.kernel := rfl
    rw [em, monitor_units]
    rfl
  unfold mcmc
  rw [h0, mcmcLoop_units hs]
  cases mcmcLoop e fuel rnd 0 (mcmcInit e ws) with
  | error x => rfl
  | ok q => rfl

/-! ### likelihood calls -/

theorem logLike_units (U : Units d) (e : SamplerEnv d B Φ) (hp : PoolOk e.like) (xs : List (Pt d)) :
    logLike (unitsProblem U e).like (xs.map U.point) = logLike e.like xs := by
  have key : (xs.map U.point).mapM (unitsProblem U e).like.single = xs.mapM e.like.single := by
    have := mapM_map_map e.like.single (unitsProblem U e).like.single U.point id (fun x => by
      show e.like.single (U.back (U.point x)) = _
      rw [back_point]
      cases e.like.single x <;> rfl) xs
    rw [this]
    cases xs.mapM e.like.single <;> simp [Except.map]
  unfold logLike
  have e1 : (unitsProblem U e).like.vectorize = e.like.vectorize := rfl
  have e2 : (unitsProblem U e).like.pool = e.like.pool := rfl
  have e3 : (unitsProblem U e).like.vector (xs.map U.point) = e.like.vector xs := by
    show e.like.vector ((xs.map U.point).map U.back) = _
    rw [map_back_point]
  rw [e1, e2, e3]
  split_ifs
  · rfl
  · cases hD : e.like.pool with
    | none => simp only [key]
    | some D =>
      dsimp only
      rw [hp D hD, hp D hD, key]

theorem logLike_units' (U : Units d) (e : SamplerEnv d B Φ) (hp : PoolOk e.like) (ys : List (Pt d)) :
    logLike (unitsProblem U e).like ys = logLike e.like (ys.map U.back) := by
  have key : ys.mapM (unitsProblem U e).like.single = (ys.map U.back).mapM e.like.single := by
    have := mapM_map_map (unitsProblem U e).like.single e.like.single U.back id (fun x => by
      show e.like.single (U.back x) = Except.map id (e.like.single (U.back x))
      cases e.like.single (U.back x) <;> rfl) ys
    rw [this]
    cases ys.mapM (unitsProblem U e).like.single <;> simp [Except.map]
  unfold logLike
  have e1 : (unitsProblem U e).like.vectorize = e.like.vectorize := rfl
  have e2 : (unitsProblem U e).like.pool = e.like.pool := rfl
  have e3 : (unitsProblem U e).like.vector ys = e.like.vector (ys.map U.back) := rfl
  rw [e1, e2, e3]
  split_ifs
  · rfl
  · cases hD : e.like.pool with
    | none => simp only [key]
    | some D =>
      dsimp only
      rw [hp D hD, hp D hD, key]

theorem logPrior_units (U : Units d) (e : SamplerEnv d B Φ) (xs : List (Pt d)) :
    (unitsProblem U e).logPrior (xs.map U.point) = (e.logPrior xs).map (· + fin (-U.logVolume)) := by
  show (e.logPrior ((xs.map U.point).map U.back)).map _ = _
  rw [map_back_point]

/-! ### reweighting, training, resampling -/

noncomputable def unitsCur (U : Units d) (q : Cur d B) : Cur d B := { q with it := unitsIter U q.it }

theorem computeLogwLogz_units (U : Units d) (past : Cols d (List B) List) (b : F) :
    computeLogwLogz (unitsCols U past) b = computeLogwLogz past b := rfl

theorem essAt_units (U : Units d) (past : Cols d (List B) List) (m : Metric) (b : F) :
    essAt (unitsCols U past) m b = essAt past m b := rfl

theorem bisect_units (U : Units d) (past : Cols d (List B) List) (m : Metric) (nEff : F) (n : ℕ) : ∀ lo hi : F,
    bisect (unitsCols U past) m nEff n lo hi = bisect past m nEff n lo hi := by
  induction n with
  | zero => intro lo hi; rfl
  | succ n ih =>
    intro lo hi
    unfold bisect
    simp only [essAt_units, ih]

theorem chooseBeta_units (U : Units d) (past : Cols d (List B) List) (m : Metric) (nEff : F) (fuel : ℕ) :
    chooseBeta (unitsCols U past) m nEff fuel = chooseBeta past m nEff fuel := by
  unfold chooseBeta
  simp only [essAt_units, bisect_units, computeLogwLogz_units]
  rfl

theorem getFlat_map {α β : Type} (f : α → β) (l : List (List α)) :
    getFlat (l.map (List.map f)) = (getFlat l).map (List.map f) := by
  unfold getFlat
  by_cases h : l = []
  · simp [h, Except.map]
  · simp [h, Except.map]

theorem gatherCur_units (U : Units d) (past : Cols d (List B) List) (hB : Bool) (q : Cur d B) (idx : List ℕ) (w : List F)
    (beta logz ess : F) :
    gatherCur (unitsCols U past) hB (unitsCur U q) idx w beta logz ess =
      (gatherCur past hB q idx w beta logz ess).map (unitsCur U) := by
  unfold gatherCur
  refine bind_shift_id rfl fun _ _ => bind_shift_id rfl fun _ _ => ?_
  refine bind_shift (getFlat_map _ _) fun l _ => bind_shift (gather_map l _ idx) fun _ _ => ?_
  refine bind_shift (getFlat_map _ _) fun l _ => bind_shift (gather_map l _ idx) fun _ _ => ?_
  refine bind_shift_id rfl fun _ _ => bind_shift_id rfl fun _ _ => ?_
  refine bind_shift (getFlat_map _ _) fun l _ => bind_shift (gather_map l _ idx) fun _ _ => ?_
  dsimp only
  split_ifs
  · exact bind_shift_id rfl fun _ _ => rfl
  · rfl

theorem reweight_units (U : Units d) (e : SamplerEnv d B Φ) (fuel : ℕ) (s : Sampler d B Φ) (q : Cur d B) :
    reweight (unitsProblem U e) fuel (unitsSampler U s) (unitsCur U q) =
      (reweight e fuel s q).map fun r => (unitsSampler U r.1, unitsCur U r.2) := by
  unfold reweight
  refine bind_shift_id (chooseBeta_units U _ _ _ _) fun r _ => ?_
  refine bind_shift_id rfl fun wn _ => ?_
  refine bind_shift_id rfl fun tr _ => ?_
  exact bind_shift (gatherCur_units U _ _ q _ _ _ _ _) fun q' _ => rfl

theorem train_units (U : Units d) (e : SamplerEnv d B Φ) (rnd : Rnd d Φ) (s : Sampler d B Φ) (q : Cur d B) :
    train (unitsProblem U e) (unitsRnd U rnd) (unitsSampler U s) (unitsCur U q) = (train e rnd s q).map (unitsSampler U) := by
  unfold train
  refine bind_shift_id rfl fun w _ => bind_shift_id rfl fun b _ => ?_
  cases b with
  | true => exact bind_shift_id rfl fun _ _ => bind_shift_id rfl fun _ _ => rfl
  | false => exact bind_shift_id rfl fun _ _ => rfl

theorem resampleStep_units (U : Units d) (e : SamplerEnv d B Φ) (rnd : Rnd d Φ) (s : Sampler d B Φ) (q : Cur d B) :
    resampleStep (unitsProblem U e) (unitsRnd U rnd) (unitsSampler U s) (unitsCur U q) =
      (resampleStep e rnd s q).map (unitsCur U) := by
  unfold resampleStep
  refine bind_shift_id rfl fun _ _ => bind_shift_id rfl fun _ _ => bind_shift_id rfl fun _ _ => ?_
  refine bind_shift (gather_map _ _ _) fun _ _ => bind_shift (gather_map _ _ _) fun _ _ => bind_shift_id rfl fun _ _ => ?_
  exact bind_shift (gather_map _ _ _) fun _ _ => bind_shift_id rfl fun _ _ => rfl

/-! ### mutation -/

theorem toWalkers_units (U : Units d) (it : Iter d (List B)) (hB : Bool) :
    toWalkers (unitsIter U it) hB = (toWalkers it hB).map (List.map (unitsWalker U)) := by
  unfold toWalkers
  have hx : List.length (unitsIter U it).x = List.length it.x := List.length_map ..
  have hj : List.length (unitsIter U it).logdetj = List.length it.logdetj := List.length_map ..
  have hp : List.length (unitsIter U it).logp = List.length it.logp := List.length_map ..
  have key : ∀ blobs : List (Option (List B)),
      (if List.length it.u = List.length it.x ∧ List.length it.logdetj = List.length it.x ∧
          List.length it.logl = List.length it.x ∧ List.length it.logp = List.length it.x ∧
          blobs.length = List.length it.x then
        (pure ((List.range (List.length it.x)).map fun k =>
          { theta := fun _ => nan, u := (List.getD (unitsIter U it).u k fun _ => nan),
            x := (List.getD (unitsIter U it).x k fun _ => nan), logdetj := List.getD (unitsIter U it).logdetj k nan,
            logdetjFlow := nan, logl := List.getD (unitsIter U it).logl k nan,
            logp := List.getD (unitsIter U it).logp k nan, blob := blobs.getD k none }) :
            Except PyErr (List (Walker d (List B))))
      else .error .indexError) =
      (if List.length it.u = List.length it.x ∧ List.length it.logdetj = List.length it.x ∧
          List.length it.logl = List.length it.x ∧ List.length it.logp = List.length it.x ∧
          blobs.length = List.length it.x then
        (pure ((List.range (List.length it.x)).map fun k =>
          { theta := fun _ => nan, u := (List.getD it.u k fun _ => nan),
            x := (List.getD it.x k fun _ => nan), logdetj := List.getD it.logdetj k nan,
            logdetjFlow := nan, logl := List.getD it.logl k nan,
            logp := List.getD it.logp k nan, blob := blobs.getD k none }) :
            Except PyErr (List (Walker d (List B))))
      else .error .indexError).map (List.map (unitsWalker U)) := by
    intro blobs
    split_ifs
    · simp only [pure, Except.pure, Except.map, List.map_map]
      congr 1
      apply List.map_congr_left
      intro k _
      simp only [Function.comp, unitsWalker, unitsIter]
      congr 1
      · rw [List.getD_eq_getElem?_getD, List.getD_eq_getElem?_getD, List.getElem?_map]
        cases (it.x : List (Pt d))[k]? <;> rfl
      · rw [List.getD_eq_getElem?_getD, List.getD_eq_getElem?_getD, List.getElem?_map]
        cases (it.logdetj : List F)[k]? <;> rfl
      · rw [List.getD_eq_getElem?_getD, List.getD_eq_getElem?_getD, List.getElem?_map]
        cases (it.logp : List F)[k]? <;> rfl
    · rfl
  simp only [hx, hj, hp]
  cases hB with
  | true =>
    have : (unitsIter U it).blobs = it.blobs := rfl
    simp only [this, if_true]
    cases (it.blobs : Option (List (List B))) with
    | none => rfl
    | some b => exact key _
  | false => exact key _

theorem kernelEnv_units (U : Units d) (e : SamplerEnv d B Φ) (hp : PoolOk e.like) (s : Sampler d B Φ) (beta : F) :
    kernelEnv (unitsProblem U e) (unitsSampler U s) beta = (kernelEnv e s beta).map (unitsEnv U) := by
  unfold kernelEnv
  refine bind_shift_id rfl fun g _ => bind_shift_id rfl fun _ _ => bind_shift_id rfl fun _ _ => ?_
  simp only [pure, Except.pure, Except.map, unitsEnv]
  congr 2
  funext ys
  rw [logLike_units' U e hp]

theorem kernelEnv_scaler {e : SamplerEnv d B Φ} {s : Sampler d B Φ} {beta : F} {k : McmcEnv d (List B)}
    (h : kernelEnv e s beta = .ok k) : k.scaler = s.scaler := by
  unfold kernelEnv at h
  obtain ⟨_, -, h⟩ := bind_ok h
  obtain ⟨_, -, h⟩ := bind_ok h
  obtain ⟨_, -, h⟩ := bind_ok h
  cases h; rfl

theorem writeBack_units (U : Units d) (s : Sampler d B Φ) (q : Cur d B) (r : McmcResult d (List B)) :
    writeBack (unitsSampler U s) (unitsCur U q) (unitsResult U r) =
      (unitsSampler U (writeBack s q r).1, unitsCur U (writeBack s q r).2) := by
  unfold writeBack unitsResult unitsCur unitsSampler unitsIter unitsWalker
  simp only [List.map_map, List.map_append]
  rfl

theorem mutate_units (U : Units d) (e : SamplerEnv d B Φ) (hp : PoolOk e.like) (rnd : Rnd d Φ) (fuel : ℕ) (s : Sampler d B Φ)
    (hs : Diagonal s.scaler) (q : Cur d B) :
    mutate (unitsProblem U e) (unitsRnd U rnd) fuel (unitsSampler U s) (unitsCur U q) =
      (mutate e rnd fuel s q).map fun r => (unitsSampler U r.1, unitsCur U r.2) := by
  unfold mutate
  refine bind_shift (toWalkers_units U q.it _) fun ws _ => ?_
  refine bind_shift (kernelEnv_units U e hp s _) fun k hk => ?_
  refine bind_shift (mcmc_units (by rw [kernelEnv_scaler hk]; exact hs) fuel _ ws) fun r _ => ?_
  rw [writeBack_units]
  rfl

theorem update_units (U : Units d) (p : Particles d (List B)) (it : Iter d (List B)) :
    ({ past := unitsCols U p.past, resultsDict := p.resultsDict.map fun r => { r with cols := unitsCols U r.cols } } :
      Particles d (List B)).update (Cols.full (unitsIter U it)) =
    { past := unitsCols U (p.update (Cols.full it)).past
      resultsDict := (p.update (Cols.full it)).resultsDict.map fun r => { r with cols := unitsCols U r.cols } } := by
  unfold Particles.update Cols.full unitsCols unitsIter
  simp only [Option.toList, List.map_append, List.map_cons, List.map_nil]

/-! ### nothing but the first call of `run` touches the scaler -/

theorem reweight_scaler {e : SamplerEnv d B Φ} {fuel : ℕ} {s : Sampler d B Φ} {q : Cur d B}
    {r : Sampler d B Φ × Cur d B} (h : reweight e fuel s q = .ok r) : r.1.scaler = s.scaler := by
  unfold reweight at h
  obtain ⟨_, -, h⟩ := bind_ok h
  obtain ⟨_, -, h⟩ := bind_ok h
  obtain ⟨_, -, h⟩ := bind_ok h
  obtain ⟨_, -, h⟩ := bind_ok h
  cases h
  rfl

theorem train_scaler {e : SamplerEnv d B Φ} {rnd : Rnd d Φ} {s s' : Sampler d B Φ} {q : Cur d B}
    (h : train e rnd s q = .ok s') : s'.scaler = s.scaler := by
  unfold train at h
  obtain ⟨w, -, h⟩ := bind_ok h
  obtain ⟨b, -, h⟩ := bind_ok h
  cases b with
  | true =>
    obtain ⟨_, -, h⟩ := bind_ok h
    obtain ⟨_, -, h⟩ := bind_ok h
    cases h; rfl
  | false =>
    obtain ⟨_, -, h⟩ := bind_ok h
    cases h; rfl

theorem mutate_scaler {e : SamplerEnv d B Φ} {rnd : Rnd d Φ} {fuel : ℕ} {s : Sampler d B Φ} {q : Cur d B}
    {r : Sampler d B Φ × Cur d B} (h : mutate e rnd fuel s q = .ok r) : r.1.scaler = s.scaler := by
  unfold mutate at h
  obtain ⟨_, -, h⟩ := bind_ok h
  obtain ⟨_, -, h⟩ := bind_ok h
  obtain ⟨_, -, h⟩ := bind_ok h
  cases h; rfl

theorem smcStep_scaler {e : SamplerEnv d B Φ} {rnd : Rnd d Φ} {fuel : ℕ} {s s' : Sampler d B Φ}
    (h : smcStep e rnd fuel s = .ok s') : s'.scaler = s.scaler := by
  unfold smcStep at h
  obtain ⟨q, -, h⟩ := bind_ok h
  obtain ⟨r, hr, h⟩ := bind_ok h
  obtain ⟨s1, q1⟩ := r
  obtain ⟨s2, h2, h⟩ := bind_ok h
  obtain ⟨q2, h3, h⟩ := bind_ok h
  obtain ⟨r, h4, h⟩ := bind_ok h
  obtain ⟨s3, q3⟩ := r
  cases h
  exact (mutate_scaler h4).trans ((train_scaler h2).trans (reweight_scaler hr))

theorem warmupStep_scaler {e : SamplerEnv d B Φ} {rnd : Rnd d Φ} {s s' : Sampler d B Φ} {i : ℕ}
    (h : warmupStep e rnd s i = .ok s') : s'.scaler = s.scaler := by
  unfold warmupStep at h
  obtain ⟨r, -, h⟩ := bind_ok h
  obtain ⟨b0, hb⟩ := r
  obtain ⟨b, -, h⟩ := bind_ok h
  cases h; rfl

/-! ### steps -/

theorem smcStep_units (U : Units d) (e : SamplerEnv d B Φ) (hp : PoolOk e.like) (rnd : Rnd d Φ) (fuel : ℕ) (s : Sampler d B Φ)
    (hs : Diagonal s.scaler) :
    smcStep (unitsProblem U e) (unitsRnd U rnd) fuel (unitsSampler U s) = (smcStep e rnd fuel s).map (unitsSampler U) := by
  unfold smcStep
  refine bind_shift (f := unitsCur U) (by simp only [unitsSampler]; cases s.cur <;> rfl) fun q _ => ?_
  refine bind_shift (reweight_units U e fuel s q) fun r hr => ?_
  have hr1 := reweight_scaler hr
  obtain ⟨s1, q1⟩ := r
  dsimp only at hr1 ⊢
  refine bind_shift (train_units U e rnd s1 q1) fun s2 h2 => ?_
  refine bind_shift (resampleStep_units U e rnd s2 q1) fun q2 h3 => ?_
  have hs2 : s2.scaler = s.scaler := (train_scaler h2).trans hr1
  refine bind_shift (mutate_units U e hp rnd fuel s2 (by rw [hs2]; exact hs) q2) fun r h4 => ?_
  obtain ⟨s3, q3⟩ := r
  dsimp only
  simp only [pure, Except.pure, Except.map]
  congr 1
  have := update_units U s3.particles q3.it
  simp only [unitsSampler, unitsCur, Option.map_some] at this ⊢
  rw [this]

noncomputable def unitsBatch (U : Units d) (b : Batch d B) : Batch d B :=
  { b with x := b.x.map U.point, logp := b.logp.map (· + fin (-U.logVolume)), logdetj := b.logdetj.map (· + fin U.logVolume) }

theorem replaceInf_units (U : Units d) (b : Batch d B) (hB : Bool) (draw : ℕ → ℕ) :
    replaceInf (unitsBatch U b) hB draw = (replaceInf b hB draw).map (unitsBatch U) := by
  unfold replaceInf
  refine bind_shift_id rfl fun ds _ => ?_
  obtain ⟨dst, src⟩ := ds
  dsimp only
  split_ifs
  · rfl
  · refine bind_shift (copyRows_map _ _ _ _) fun _ _ => bind_shift_id rfl fun _ _ => ?_
    refine bind_shift (copyRows_map _ _ _ _) fun _ _ => bind_shift (copyRows_map _ _ _ _) fun _ _ => ?_
    exact bind_shift_id rfl fun _ _ => bind_shift_id rfl fun _ _ => rfl

theorem warmupBatch_units (U : Units d) (e : SamplerEnv d B Φ) (hp : PoolOk e.like) (s : Sampler d B Φ)
    (hs : Diagonal s.scaler) (i : ℕ) :
    warmupBatch (unitsProblem U e) (unitsSampler U s) i =
      (warmupBatch e s i).map fun r => (unitsBatch U r.1, r.2) := by
  unfold warmupBatch
  refine bind_shift (f := List.map U.point) (by simp only [unitsSampler]; cases s.priorSamples <;> rfl) fun ps _ => ?_
  have hx : ((ps.map U.point).drop (i * (unitsProblem U e).nActive)).take (unitsProblem U e).nActive
      = ((ps.drop (i * e.nActive)).take e.nActive).map U.point := by
    rw [List.map_take, List.map_drop]
    rfl
  dsimp only
  rw [hx]
  refine bind_shift_id (forward_units hs _) fun u _ => ?_
  refine bind_shift (inverse_units hs u) fun inv _ => ?_
  refine bind_shift_id (logLike_units U e hp _) fun r _ => ?_
  rw [logPrior_units]
  obtain ⟨logl, bl, hb⟩ := r
  simp only [pure, Except.pure, Except.map, unitsBatch, List.map_map]
  first | done | rfl

theorem warmupStep_units (U : Units d) (e : SamplerEnv d B Φ) (hp : PoolOk e.like) (rnd : Rnd d Φ) (s : Sampler d B Φ)
    (hs : Diagonal s.scaler) (i : ℕ) :
    warmupStep (unitsProblem U e) (unitsRnd U rnd) (unitsSampler U s) i = (warmupStep e rnd s i).map (unitsSampler U) := by
  unfold warmupStep
  refine bind_shift (warmupBatch_units U e hp s hs i) fun r _ => ?_
  obtain ⟨b0, hb⟩ := r
  refine bind_shift (replaceInf_units U b0 hb _) fun b _ => ?_
  simp only [pure, Except.pure, Except.map]
  congr 1
  have h1 : ∀ t calls nEff, warmupIter (unitsBatch U b) e.nActive t calls nEff
      = unitsIter U (warmupIter b e.nActive t calls nEff) := fun _ _ _ => rfl
  have h2 := update_units U s.particles (warmupIter b e.nActive s.t (s.calls + e.nActive) s.nEffective)
  have h3 : (unitsSampler U s).priorSamples.map (fun ps => writeSlice ps (i * (unitsProblem U e).nActive) (unitsBatch U b).x)
      = (s.priorSamples.map fun ps => writeSlice ps (i * e.nActive) b.x).map (List.map U.point) := by
    simp only [unitsSampler]
    cases s.priorSamples with
    | none => rfl
    | some ps =>
      simp only [Option.map_some, writeSlice, unitsBatch, List.map_append, List.map_take, List.map_drop, List.length_map]
      rfl
  rw [h3]
  have h4 : (unitsSampler U s).evals ++ (unitsBatch U b0).x = (s.evals ++ b0.x).map U.point := by
    rw [List.map_append]; rfl
  rw [h4]
  have e1 : (unitsProblem U e).nActive = e.nActive := rfl
  rw [e1, h1]
  simp only [unitsSampler, Option.map_some] at h2 ⊢
  rw [← h2]

/-! ### evidence -/

theorem keepFinite_units {α : Type} (k : ℝ) (logp : List F) (l : List α) :
    keepFinite (logp.map (· + fin k)) l = keepFinite logp l := by
  unfold keepFinite
  rw [List.map_map]
  congr 1
  exact List.map_congr_left fun a _ => isfinite_add_fin a k

theorem evidenceOf_units (k : ℝ) (logl logp logdetj logq : List F) :
    evidenceOf logl (logp.map (· + fin (-k))) (logdetj.map (· + fin k)) logq = evidenceOf logl logp logdetj logq := by
  have : List.zipWith (· + ·) (List.zipWith (· + ·) logl (logp.map (· + fin (-k)))) (logdetj.map (· + fin k))
      = List.zipWith (· + ·) (List.zipWith (· + ·) logl logp) logdetj := by
    induction logl generalizing logp logdetj with
    | nil => rfl
    | cons l logl ih =>
      cases logp with
      | nil => rfl
      | cons p logp =>
        cases logdetj with
        | nil => rfl
        | cons j logdetj =>
          simp only [List.map_cons, List.zipWith_cons_cons, ih]
          have h0 : l + (p + fin (-k)) + (j + fin k) = l + p + j + (fin (-k) + fin k) := by abel
          rw [h0, fin_add, neg_add_cancel]
          congr 1
          exact add_zero (l + p + j)
  unfold evidenceOf
  rw [this]

theorem computeEvidence_units (U : Units d) (e : SamplerEnv d B Φ) (hp : PoolOk e.like) (rnd : Rnd d Φ) (n : ℕ)
    (s : Sampler d B Φ) (hs : Diagonal s.scaler) :
    computeEvidence (unitsProblem U e) (unitsRnd U rnd) n (unitsSampler U s) =
      (computeEvidence e rnd n s).map (unitsSampler U) := by
  unfold computeEvidence
  refine bind_shift (inverse_units hs _) fun inv _ => ?_
  have h1 : (inv.map fun r : Pt d × F => (U.point r.1, r.2 + fin U.logVolume)).map (·.1) = (inv.map (·.1)).map U.point := by
    rw [List.map_map, List.map_map]; rfl
  have h2 : (inv.map fun r : Pt d × F => (U.point r.1, r.2 + fin U.logVolume)).map (·.2)
      = (inv.map (·.2)).map (· + fin U.logVolume) := by
    rw [List.map_map, List.map_map]; rfl
  simp only [h1, h2, logPrior_units, keepFinite_units]
  have h3 : keepFinite (e.logPrior (inv.map (·.1))) ((inv.map (·.1)).map U.point)
      = (keepFinite (e.logPrior (inv.map (·.1))) (inv.map (·.1))).map U.point := maskSelect_map' _ _ _
  have h4 : keepFinite (e.logPrior (inv.map (·.1))) ((e.logPrior (inv.map (·.1))).map (· + fin (-U.logVolume)))
      = (keepFinite (e.logPrior (inv.map (·.1))) (e.logPrior (inv.map (·.1)))).map (· + fin (-U.logVolume)) :=
    maskSelect_map' _ _ _
  have h5 : keepFinite (e.logPrior (inv.map (·.1))) ((inv.map (·.2)).map (· + fin U.logVolume))
      = (keepFinite (e.logPrior (inv.map (·.1))) (inv.map (·.2))).map (· + fin U.logVolume) := maskSelect_map' _ _ _
  rw [h3, h4, h5]
  refine bind_shift_id (logLike_units U e hp _) fun r _ => ?_
  obtain ⟨logl, bl, hb⟩ := r
  simp only [evidenceOf_units, pure, Except.pure, Except.map]
  congr 1
  simp only [unitsSampler, List.map_append]
  rfl

theorem finalEvidence_units (U : Units d) (e : SamplerEnv d B Φ) (hp : PoolOk e.like) (rnd : Rnd d Φ) (s : Sampler d B Φ)
    (hs : Diagonal s.scaler) :
    finalEvidence (unitsProblem U e) (unitsRnd U rnd) (unitsSampler U s) = (finalEvidence e rnd s).map (unitsSampler U) := by
  unfold finalEvidence
  by_cases h : s.nEvidence > 0 ∧ e.preconditioned = true
  · rw [if_pos h]
    exact (if_pos h).trans (computeEvidence_units U e hp rnd s.nEvidence s hs)
  · rw [if_neg h]
    refine (if_neg h).trans ?_
    exact bind_shift_id (computeLogwLogz_units U _ _) fun r _ => rfl

/-! ### run -/

theorem notTermination_units (U : Units d) (e : SamplerEnv d B Φ) (s : Sampler d B Φ) :
    notTermination (unitsProblem U e) (unitsSampler U s) = notTermination e s := by
  unfold notTermination
  have : essAt (unitsSampler U s).particles.past (unitsProblem U e).metric (fin 1) = essAt s.particles.past e.metric (fin 1) :=
    essAt_units U _ _ _
  rw [this]
  simp only [unitsSampler]
  cases s.cur <;> rfl

theorem andThen_units (U : Units d) (a : Trace d B Φ) (f g : Sampler d B Φ → Trace d B Φ)
    (h : ∀ s, a.2 = .ok s → g (unitsSampler U s) = unitsTrace U (f s)) :
    (unitsTrace U a).andThen g = unitsTrace U (a.andThen f) := by
  obtain ⟨l, r⟩ := a
  cases r with
  | error x => rfl
  | ok s =>
    have := h s rfl
    unfold Trace.andThen unitsTrace
    dsimp only [Except.map] at this ⊢
    rw [this]
    unfold unitsTrace
    simp only [List.map_append]
    cases (f s).2 <;> rfl

theorem save_units (U : Units d) (k : Option ℕ) (t0 : ℕ) (s : Sampler d B Φ) :
    Trace.save k t0 (unitsSampler U s) = unitsTrace U (Trace.save k t0 s) := by
  have ht : (unitsSampler U s).t = s.t := rfl
  unfold Trace.save saveNow
  rw [ht]
  cases k with
  | none => rfl
  | some k =>
    dsimp only
    split_ifs <;> rfl

theorem warmupLoop_units (U : Units d) (e : SamplerEnv d B Φ) (hp : PoolOk e.like) (rnd : Rnd d Φ) (k : Option ℕ) (t0 n : ℕ) :
    ∀ (i : ℕ) (s : Sampler d B Φ), Diagonal s.scaler →
      warmupLoop (unitsProblem U e) (unitsRnd U rnd) k t0 n i (unitsSampler U s) =
        unitsTrace U (warmupLoop e rnd k t0 n i s) := by
  induction n with
  | zero => intro i s _; rfl
  | succ n ih =>
    intro i s hs
    simp only [warmupLoop]
    rw [save_units]
    refine andThen_units U _ _ _ fun s1 h1 => ?_
    obtain rfl := save_ok h1
    unfold Trace.lift
    rw [warmupStep_units U e hp rnd _ hs]
    exact andThen_units U ([], _) _ _ fun s2 h2 => ih (i + 1) s2 (by rw [warmupStep_scaler h2]; exact hs)

theorem warmupLoop_scaler {e : SamplerEnv d B Φ} {rnd : Rnd d Φ} {k : Option ℕ} {t0 n : ℕ} :
    ∀ {i : ℕ} {s s' : Sampler d B Φ}, (warmupLoop e rnd k t0 n i s).2 = .ok s' → s'.scaler = s.scaler := by
  induction n with
  | zero => intro i s s' h; cases h; rfl
  | succ n ih =>
    intro i s s' h
    simp only [warmupLoop] at h
    obtain ⟨s1, h1, h'⟩ := andThen_ok h
    obtain rfl := save_ok h1
    obtain ⟨s2, h2, h''⟩ := andThen_ok h'
    exact (ih h'').trans (warmupStep_scaler h2)

theorem smcLoop_units (U : Units d) (e : SamplerEnv d B Φ) (hp : PoolOk e.like) (rnd : Rnd d Φ) (fuel : ℕ) (k : Option ℕ)
    (t0 n : ℕ) : ∀ s : Sampler d B Φ, Diagonal s.scaler →
      smcLoop (unitsProblem U e) (unitsRnd U rnd) fuel k t0 n (unitsSampler U s) =
        unitsTrace U (smcLoop e rnd fuel k t0 n s) := by
  induction n with
  | zero =>
    intro s hs
    unfold smcLoop
    rw [notTermination_units U e s]
    cases notTermination e s with
    | error x => rfl
    | ok b => cases b <;> rfl
  | succ n ih =>
    intro s hs
    unfold smcLoop
    rw [notTermination_units U e s]
    cases notTermination e s with
    | error x => rfl
    | ok b =>
      cases b with
      | false => rfl
      | true =>
        dsimp only
        rw [save_units]
        refine andThen_units U _ _ _ fun s1 h1 => ?_
        obtain rfl := save_ok h1
        unfold Trace.lift
        rw [smcStep_units U e hp rnd fuel _ hs]
        exact andThen_units U ([], _) _ _ fun s2 h2 => ih s2 (by rw [smcStep_scaler h2]; exact hs)

theorem smcLoop_scaler {e : SamplerEnv d B Φ} {rnd : Rnd d Φ} {fuel : ℕ} {k : Option ℕ} {t0 n : ℕ} :
    ∀ {s s' : Sampler d B Φ}, (smcLoop e rnd fuel k t0 n s).2 = .ok s' → s'.scaler = s.scaler := by
  induction n with
  | zero =>
    intro s s' h
    unfold smcLoop at h
    cases hn : notTermination e s with
    | error x => rw [hn] at h; cases h
    | ok b => rw [hn] at h; cases b <;> cases h; rfl
  | succ n ih =>
    intro s s' h
    unfold smcLoop at h
    cases hn : notTermination e s with
    | error x => rw [hn] at h; cases h
    | ok b =>
      rw [hn] at h
      cases b with
      | false => cases h; rfl
      | true =>
        dsimp only at h
        obtain ⟨s1, h1, h'⟩ := andThen_ok h
        obtain rfl := save_ok h1
        obtain ⟨s2, h2, h''⟩ := andThen_ok h'
        exact (ih h'').trans (smcStep_scaler h2)

theorem fit_diagonal {s s' : Scaler d} {xs : List (Pt d)} (hs : Diagonal s) (h : s.fit xs = .ok s') : Diagonal s' := by
  unfold Scaler.fit at h
  split at h
  · cases h
  · cases h
    exact ⟨hs.1, fun mu L Linv ld hc => by cases hc⟩

theorem runInit_units (U : Units d) (e : SamplerEnv d B Φ) (rnd : Rnd d Φ) (a : RunArgs) (s : Sampler d B Φ) :
    runInit (unitsProblem U e) (unitsRnd U rnd) a (unitsSampler U s) = (runInit e rnd a s).map (unitsSampler U) := by
  unfold runInit
  have : (unitsSampler U s).priorSamples = s.priorSamples.map (List.map U.point) := rfl
  dsimp only
  rw [this]
  cases hq : s.priorSamples with
  | some ps =>
    simp only [Option.map_some, Except.map, unitsSampler, hq]
  | none => exact bind_shift (fit_units U _ _) fun _ _ => rfl

theorem runInit_diagonal {e : SamplerEnv d B Φ} {rnd : Rnd d Φ} {a : RunArgs} {s s' : Sampler d B Φ}
    (hs : Diagonal s.scaler) (h : runInit e rnd a s = .ok s') : Diagonal s'.scaler := by
  unfold runInit at h
  dsimp only at h
  cases hq : s.priorSamples with
  | some _ => rw [hq] at h; cases h; exact hs
  | none =>
    rw [hq] at h
    obtain ⟨sc, hsc, h⟩ := bind_ok h
    cases h; exact fit_diagonal hs hsc

theorem runWarmup_scaler {e : SamplerEnv d B Φ} {rnd : Rnd d Φ} {a : RunArgs} {t0 : ℕ} {s1 s2 : Sampler d B Φ}
    (h2 : (runWarmup e rnd a t0 s1).2 = .ok s2) : s2.scaler = s1.scaler := by
  unfold runWarmup at h2
  by_cases hw : s1.warmup = true
  · rw [if_pos hw] at h2
    by_cases hn : e.nActive = 0
    · rw [if_pos hn] at h2; cases h2
    · rw [if_neg hn] at h2
      obtain ⟨s', h', h2⟩ := andThen_ok h2
      cases h2
      exact (warmupLoop_scaler (s' := s') h' :)
  · rw [if_neg hw] at h2; cases h2; rfl

theorem finalEvidence_scaler {e : SamplerEnv d B Φ} {rnd : Rnd d Φ} {s s' : Sampler d B Φ}
    (h : finalEvidence e rnd s = .ok s') : s'.scaler = s.scaler := by
  unfold finalEvidence at h
  split_ifs at h
  · unfold computeEvidence at h
    obtain ⟨_, -, h⟩ := bind_ok h
    obtain ⟨_, -, h⟩ := bind_ok h
    cases h; rfl
  · obtain ⟨_, -, h⟩ := bind_ok h
    cases h; rfl

/-- C136.  Measuring the parameters in other units (`y = a x + b` with `a > 0`, parameter by parameter) changes nothing in a
whole run, new or resumed, with the same random numbers, but the numbers that carry the units: every state the run saves and
the state it ends in are those of the original run with the points converted, the log-priors lowered and the log-determinants
raised by the log-volume of the conversion.  The unbounded coordinates, weights, temperatures, log-likelihoods,
log-evidences, acceptance rates, step counts, counters, flow, geometry, blobs, the names of the state files and any
exception are the same.  Nothing is assumed finite; bounds may be absent, one-sided or two-sided, periodic or reflective. -/
theorem C136_run_units (U : Units d) (e : SamplerEnv d B Φ)
    (hpool : ∀ D, e.like.pool = some D → ∀ f xs, D f xs = xs.mapM f)
    (rnd : Rnd d Φ) (fuel n : ℕ) (a : RunArgs) (s : Sampler d B Φ) (hs : Diagonal s.scaler) :
    run (unitsProblem U e) (unitsRnd U rnd) fuel n a (unitsSampler U s) = unitsTrace U (run e rnd fuel n a s) := by
  unfold run
  dsimp only
  unfold Trace.lift
  rw [runInit_units]
  refine andThen_units U ([], _) _ _ fun s1 h1 => ?_
  have hs1 : Diagonal s1.scaler := runInit_diagonal hs h1
  have ht : (unitsSampler U s).t = s.t := rfl
  have hw : runWarmup (unitsProblem U e) (unitsRnd U rnd) a s.t (unitsSampler U s1) =
      unitsTrace U (runWarmup e rnd a s.t s1) := by
    unfold runWarmup
    have e1 : (unitsSampler U s1).warmup = s1.warmup := rfl
    have e2 : (unitsProblem U e).nActive = e.nActive := rfl
    rw [e1, e2]
    split_ifs
    · rfl
    · refine Eq.trans (congrArg (fun t => Trace.andThen t _) (warmupLoop_units U e hpool rnd _ _ _ 0 s1 hs1)) ?_
      exact andThen_units U _ _ _ fun s2 _ => rfl
    · rfl
  rw [ht, hw]
  refine andThen_units U _ _ _ fun s2 h2 => ?_
  have hs2 : Diagonal s2.scaler := by rw [runWarmup_scaler h2]; exact hs1
  rw [smcLoop_units U e hpool rnd fuel _ _ _ s2 hs2]
  refine andThen_units U _ _ _ fun s3 h3 => ?_
  rw [finalEvidence_units U e hpool rnd s3 (by rw [smcLoop_scaler h3]; exact hs2)]
  refine andThen_units U ([], _) _ _ fun s4 _ => ?_
  cases a.saveEvery <;> rfl

/-- C136 for a new sampler built from bounds, periodic and reflective parameters and a transformation: the sampler built from
the converted bounds is the converted sampler. -/
theorem C136_fresh (U : Units d) (e : SamplerEnv d B Φ) (hpool : ∀ D, e.like.pool = some D → ∀ f xs, D f xs = xs.mapM f)
    (rnd : Rnd d Φ) (fuel n : ℕ) (a : RunArgs) (s : Sampler d B Φ) (low high : Fin d → F) (per refl : Option (List (Fin d)))
    (t : Transform) (h0 : s.scaler = Scaler.init d (some (low, high)) per refl t) (hp : s.priorSamples = none)
    (h1 : s.particles = Particles.init) (h2 : s.cur = none) (h3 : s.evals = []) :
    run (unitsProblem U e) (unitsRnd U rnd) fuel n a
        { s with scaler := Scaler.init d (some (U.point low, U.point high)) per refl t } =
      unitsTrace U (run e rnd fuel n a s) := by
  have hs : unitsSampler U s = { s with scaler := Scaler.init d (some (U.point low, U.point high)) per refl t } := by
    unfold unitsSampler
    rw [hp, h0, h1, h2, h3]
    obtain ⟨⟩ := s
    simp only at hp h1 h2 h3
    subst hp h1 h2 h3
    rfl
  have := C136_run_units U e hpool rnd fuel n a s (by rw [h0]; exact ⟨rfl, fun _ _ _ _ h => by cases h⟩)
  rwa [hs] at this

theorem postCollect_units (U : Units d) (a : PostArgs) (s : Sampler d B Φ) :
    postCollect a (unitsSampler U s) = (postCollect a s).map fun p =>
      { p with samples := p.samples.map U.point, logp := p.logp.map (· + fin (-U.logVolume)) } := by
  unfold postCollect
  have : (unitsSampler U s).haveBlobs = s.haveBlobs := rfl
  rw [this]
  split_ifs
  · rfl
  refine bind_shift (getFlat_map _ _) fun _ _ => bind_shift_id rfl fun _ _ => bind_shift (getFlat_map _ _) fun _ _ => ?_
  exact bind_shift_id rfl fun _ _ => bind_shift_id rfl fun _ _ => rfl

theorem postTrim_units (U : Units d) (a : PostArgs) (p : Post d B) :
    postTrim a { p with samples := p.samples.map U.point, logp := p.logp.map (· + fin (-U.logVolume)) } =
      (postTrim a p).map fun p =>
        { p with samples := p.samples.map U.point, logp := p.logp.map (· + fin (-U.logVolume)) } := by
  unfold postTrim
  split_ifs
  · refine bind_shift_id (by simp only [List.length_map]) fun _ _ => bind_shift (gather_map _ _ _) fun _ _ => ?_
    refine bind_shift_id rfl fun _ _ => bind_shift (gather_map _ _ _) fun _ _ => ?_
    exact bind_shift_id rfl fun _ _ => bind_shift_id rfl fun _ _ => rfl
  · rfl

theorem postReturn_units (U : Units d) (k : ResampleKind) (us : ℕ → ℝ) (u : ℝ) (a : PostArgs) (p : Post d B) :
    postReturn k us u a { p with samples := p.samples.map U.point, logp := p.logp.map (· + fin (-U.logVolume)) } =
      (postReturn k us u a p).map fun p =>
        { p with samples := p.samples.map U.point, logp := p.logp.map (· + fin (-U.logVolume)) } := by
  unfold postReturn
  split_ifs
  · refine bind_shift_id (by cases k <;> simp [postIdx]) fun _ _ => bind_shift (gather_map _ _ _) fun _ _ => ?_
    refine bind_shift_id rfl fun _ _ => bind_shift (gather_map _ _ _) fun _ _ => ?_
    exact bind_shift_id rfl fun _ _ => rfl
  · rfl
  · rfl

/-- C136, what the user reads off afterwards: `posterior` with any options returns the same samples in the new units, with the
same weights, log-likelihoods and blobs and the log-priors lowered by the log-volume; `evidence` returns the same. -/
theorem C136_outputs (U : Units d) (e : SamplerEnv d B Φ) (us : ℕ → ℝ) (u : ℝ) (a : PostArgs) (s : Sampler d B Φ) :
    posterior (unitsProblem U e) us u a (unitsSampler U s) = (posterior e us u a s).map (fun o =>
        { o with samples := o.samples.map U.point, logp := o.logp.map (· + fin (-U.logVolume)) }) ∧
      evidence (unitsSampler U s) = evidence s := by
  refine ⟨?_, rfl⟩
  unfold posterior
  refine bind_shift (postCollect_units U a s) fun p _ => bind_shift (postTrim_units U a p) fun p _ => ?_
  exact postReturn_units U _ us u a p

/-- The scaler of every state a run ends in standardises coordinate by coordinate, so C136 goes on applying. -/
theorem C136_diagonal {e : SamplerEnv d B Φ} {rnd : Rnd d Φ} {fuel n : ℕ} {a : RunArgs} {s s' : Sampler d B Φ}
    (hs : Diagonal s.scaler) (h : (run e rnd fuel n a s).2 = .ok s') : Diagonal s'.scaler := by
  unfold run at h
  obtain ⟨s1, h1, h⟩ := andThen_ok h
  have hs1 := runInit_diagonal hs h1
  obtain ⟨s2, h2, h⟩ := andThen_ok h
  obtain ⟨s3, h3, h⟩ := andThen_ok h
  obtain ⟨s4, h4, h⟩ := andThen_ok h
  cases h
  rw [finalEvidence_scaler h4, smcLoop_scaler h3, runWarmup_scaler h2]
  exact hs1

/-- Degrees to arc minutes, with the zero moved. -/
def Demo.arcmin : Units 2 := ⟨fun _ => 60, fun _ => -5, fun _ => by norm_num⟩

/-- A run that ends, with a preconditioned sampler and an evidence estimate: in arc minutes it ends in the converted state, with
the same evidence. -/
example : ∃ s', (run (Demo.env true) Demo.rnd 0 1 (Demo.args 5) Demo.start).2 = .ok s' ∧ Diagonal s'.scaler ∧
    (run (unitsProblem Demo.arcmin (Demo.env true)) (unitsRnd Demo.arcmin Demo.rnd) 0 1 (Demo.args 5) Demo.start).2
      = .ok (unitsSampler Demo.arcmin s') ∧ evidence (unitsSampler Demo.arcmin s') = evidence s' := by
  obtain ⟨s', -, h, -⟩ := Demo.first_run true 5
  refine ⟨s', h, C136_diagonal ⟨rfl, fun _ _ _ _ h => by cases h⟩ h, ?_, rfl⟩
  have : run (unitsProblem Demo.arcmin (Demo.env true)) (unitsRnd Demo.arcmin Demo.rnd) 0 1 (Demo.args 5) Demo.start
      = unitsTrace Demo.arcmin (run (Demo.env true) Demo.rnd 0 1 (Demo.args 5) Demo.start) :=
    C136_fresh Demo.arcmin (Demo.env true) (fun D hD => by cases hD) Demo.rnd 0 1 (Demo.args 5) Demo.start
      (fun _ => ninf) (fun _ => pinf) none none .logit rfl rfl rfl rfl rfl
  rw [this]
  simp only [unitsTrace, h, Except.map]

/-- The conversion is not trivial: 2 degrees become 115 arc minutes, and the log-volume is `2 log 60`. -/
example : Demo.arcmin.point (fun _ => fin 2) = (fun _ => fin 115) ∧ Demo.arcmin.logVolume = 2 * Real.log 60 := by
  refine ⟨?_, ?_⟩
  · funext j
    simp only [Units.point, Demo.arcmin, newUnit_fin, fin_inj]
    norm_num
  · simp [Units.logVolume, Demo.arcmin]

end Poco
