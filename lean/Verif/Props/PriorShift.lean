import Verif.Props.Units
import Verif.Props.Extend
import Verif.Spec.PriorShift

/-! C139: a run needs the prior density up to a constant only, the evidence from the flow needs the constant. -/

namespace Poco
open F Spec

variable {d : ℕ} {B Φ : Type}

/-! ### MCMC -/

noncomputable def scaledEnv (c : ℝ) (e : McmcEnv d B) : McmcEnv d B :=
  { e with logPrior := fun xs => (e.logPrior xs).map (· + fin c) }

noncomputable def scaledWalker (c : ℝ) (w : Walker d B) : Walker d B := { w with logp := w.logp + fin c }

noncomputable def scaledResult (c : ℝ) (r : McmcResult d B) : McmcResult d B := { r with walkers := r.walkers.map (scaledWalker c) }

noncomputable def scaledState (c : ℝ) (st : McmcState d B) : McmcState d B :=
  { st with walkers := st.walkers.map (scaledWalker c), best := st.best + fin c }

theorem candidate_scaled (c : ℝ) (e : McmcEnv d B) (fuel : ℕ) (p : Pt d) :
    candidate (scaledEnv c e) fuel p = (candidate e fuel p).map (scaledWalker c) := by
  unfold candidate
  have e1 : (scaledEnv c e).kernel = e.kernel := rfl
  have e2 : (scaledEnv c e).flowInv = e.flowInv := rfl
  have e3 : (scaledEnv c e).scaler = e.scaler := rfl
  simp only [e1, e2, e3]
  generalize (if e.kernel.hasFlow = true then e.flowInv p else (p, fin 0)) = q
  obtain ⟨u, ldf⟩ := q
  simp only
  refine bind_shift_id rfl fun r _ => ?_
  obtain ⟨x, ld⟩ := r
  simp only
  split
  · cases e.scaler.boundaryRow fuel x with
    | none => rfl
    | some y => exact bind_shift_id rfl fun u' _ => bind_shift_id rfl fun r _ => rfl
  · rfl

theorem complete_scaled (c : ℝ) (cands : List (Walker d B)) (logl logp : List F) (blobs : List (Option B)) :
    List.zipWith (fun c (v : F × F × Option B) => ({ c with logl := v.1, logp := v.2.1, blob := v.2.2 } : Walker d B))
        (cands.map (scaledWalker c)) (logl.zip ((logp.map (· + fin c)).zip blobs)) =
      (List.zipWith (fun c (v : F × F × Option B) => ({ c with logl := v.1, logp := v.2.1, blob := v.2.2 } : Walker d B))
        cands (logl.zip (logp.zip blobs))).map (scaledWalker c) := by
  induction cands generalizing logl logp blobs with
  | nil => rfl
  | cons w ws ih =>
    cases logl with
    | nil => simp
    | cons l logl =>
      cases logp with
      | nil => simp
      | cons q logp =>
        cases blobs with
        | nil => simp
        | cons b blobs =>
          simp only [List.map_cons, List.zip_cons_cons, List.zipWith_cons_cons, ih]
          rfl

theorem evaluate_scaled (c : ℝ) (e : McmcEnv d B) (cands : List (Walker d B)) :
    evaluate (scaledEnv c e) (cands.map (scaledWalker c)) =
      (evaluate e cands).map fun r => (r.1.map (scaledWalker c), r.2.1, r.2.2) := by
  unfold evaluate
  have m1 : (cands.map (scaledWalker c)).map finiteMask = cands.map finiteMask := by
    rw [List.map_map]; rfl
  have m2 : (cands.map (scaledWalker c)).map (·.x) = cands.map (·.x) := by
    rw [List.map_map]; rfl
  simp only [m1, m2]
  have hp : ∀ xs, (scaledEnv c e).logPrior xs = (e.logPrior xs).map (· + fin c) := fun _ => rfl
  rw [hp]
  refine bind_shift (scatter_shift _ _ _) fun logp _ => ?_
  have hm : List.zipWith (fun m lp => m && F.isfinite lp) (cands.map finiteMask) (logp.map (· + fin c))
      = List.zipWith (fun m lp => m && F.isfinite lp) (cands.map finiteMask) logp := by
    rw [List.zipWith_map_right]
    simp only [isfinite_add_fin]
  simp only [hm]
  refine bind_shift_id rfl fun r _ => ?_
  refine bind_shift_id rfl fun logl _ => ?_
  refine bind_shift_id rfl fun blobs _ => ?_
  simp only [pure, Except.pure, Except.map, Except.ok.injEq, Prod.mk.injEq, and_true]
  exact complete_scaled c cands logl logp blobs

theorem alpha_scaled (c : ℝ) (e : McmcEnv d B) (mu : Pt d) (w p : Walker d B) :
    alpha (scaledEnv c e) mu (scaledWalker c w) (scaledWalker c p) = alpha e mu w p := by
  have : metropolisExponent (scaledEnv c e) mu (scaledWalker c w) (scaledWalker c p) = metropolisExponent e mu w p := by
    unfold metropolisExponent
    have h : (scaledWalker c p).logl * (scaledEnv c e).beta - (scaledWalker c w).logl * (scaledEnv c e).beta +
        (scaledWalker c p).logp - (scaledWalker c w).logp + (scaledWalker c p).logdetj - (scaledWalker c w).logdetj
        = p.logl * e.beta - w.logl * e.beta + p.logp - w.logp + p.logdetj - w.logdetj := by
      simp only [scaledWalker, scaledEnv, shift_pair]
    simp only [h]
    rfl
  unfold alpha
  rw [this]

theorem monitor_scaled (c : ℝ) (k : Kern) (ws : List (Walker d B)) :
    monitor k (ws.map (scaledWalker c)) = monitor k ws + fin c := by
  unfold monitor
  rw [← mean_shift, List.map_map, List.map_map]
  congr 1
  apply List.map_congr_left
  intro w _
  simp only [Function.comp, scaledWalker]
  by_cases h : k.isPcn = true
  · simp only [h, if_true, add_assoc]
  · simp only [h, if_false]
    have h0 : w.logl + (w.logp + fin c) + w.logdetj = w.logl + w.logp + w.logdetj + fin c := by abel
    simpa using h0

theorem mcmcStep_scaled (c : ℝ) (e : McmcEnv d B) (fuel : ℕ) (rnd : ℕ → Draw d) (i : ℕ) (st : McmcState d B) :
    mcmcStep (scaledEnv c e) fuel rnd i (scaledState c st) = (mcmcStep e fuel rnd i st).map (scaledState c) := by
  unfold mcmcStep
  have e0 : (scaledState c st).walkers = st.walkers.map (scaledWalker c) := rfl
  have e1 : ((scaledState c st).walkers.mapIdx fun k w =>
      propose (scaledEnv c e) (scaledState c st).sigma (scaledState c st).mu w (rnd k))
      = st.walkers.mapIdx fun k w => propose e st.sigma st.mu w (rnd k) := by
    rw [e0, mapIdx_map']
    rfl
  have e2 := mapM_map_map (candidate e fuel) (candidate (scaledEnv c e) fuel) id (scaledWalker c)
    (fun p => candidate_scaled c e fuel p) (st.walkers.mapIdx fun k w => propose e st.sigma st.mu w (rnd k))
  rw [List.map_id] at e2
  rw [e1]
  refine bind_shift e2 fun cands _ => ?_
  refine bind_shift (evaluate_scaled c e cands) fun r _ => ?_
  obtain ⟨props, ev, n⟩ := r
  simp only
  have ez : (scaledState c st).walkers.zip (props.map (scaledWalker c))
      = (st.walkers.zip props).map fun q => (scaledWalker c q.1, scaledWalker c q.2) := by
    rw [e0, List.zip_map]; rfl
  have ea : (((scaledState c st).walkers.zip (props.map (scaledWalker c))).map fun q =>
      alpha (scaledEnv c e) (scaledState c st).mu q.1 q.2)
      = (st.walkers.zip props).map fun q => alpha e st.mu q.1 q.2 := by
    rw [ez, List.map_map]
    apply List.map_congr_left
    intro q _
    exact alpha_scaled c e st.mu q.1 q.2
  have ew : (((scaledState c st).walkers.zip (props.map (scaledWalker c))).mapIdx fun k q =>
      if (rnd k).rand < alpha (scaledEnv c e) (scaledState c st).mu q.1 q.2 then q.2 else q.1)
      = ((st.walkers.zip props).mapIdx fun k q =>
          if (rnd k).rand < alpha e st.mu q.1 q.2 then q.2 else q.1).map (scaledWalker c) := by
    rw [ez, mapIdx_map', map_mapIdx']
    congr 1
    funext k q
    have : alpha (scaledEnv c e) (scaledState c st).mu (scaledWalker c q.1) (scaledWalker c q.2) = alpha e st.mu q.1 q.2 :=
      alpha_scaled c e st.mu q.1 q.2
    simp only [Function.comp, this]
    split <;> rfl
  rw [ea, ew]
  have em : (scaledEnv c e).kernel = e.kernel := rfl
  rw [em, monitor_scaled]
  have eb : (scaledState c st).best = st.best + fin c := rfl
  rw [eb]
  simp only [gt_iff_lt, add_fin_lt]
  have emu : muNext e.kernel i (scaledState c st).mu (((st.walkers.zip props).mapIdx fun k q =>
          if (rnd k).rand < alpha e st.mu q.1 q.2 then q.2 else q.1).map (scaledWalker c))
      = muNext e.kernel i st.mu ((st.walkers.zip props).mapIdx fun k q =>
          if (rnd k).rand < alpha e st.mu q.1 q.2 then q.2 else q.1) := by
    unfold muNext
    split
    · funext j
      rw [List.map_map]
      rfl
    · rfl
  rw [emu]
  split <;> rfl

theorem mcmcLoop_scaled (c : ℝ) (e : McmcEnv d B) (fuel : ℕ) (rnd : ℕ → ℕ → Draw d) (i : ℕ) (st : McmcState d B) :
    mcmcLoop (scaledEnv c e) fuel rnd i (scaledState c st)
      = (mcmcLoop e fuel rnd i st).map fun q => (scaledState c q.1, q.2) := by
  induction i, st using mcmcLoop.induct e fuel rnd with
  | case1 i st x hst =>
    rw [mcmcLoop, mcmcStep_scaled, hst]
    conv_rhs => rw [mcmcLoop, hst]
    rfl
  | case2 i st st1 hst hstop =>
    rw [mcmcLoop, mcmcStep_scaled, hst]
    conv_rhs => rw [mcmcLoop, hst]
    simp only [Except.map]
    rw [if_pos (show (scaledState c st1).stop = true from hstop), if_pos hstop]
  | case3 i st st1 hst hstop hn =>
    rw [mcmcLoop, mcmcStep_scaled, hst]
    conv_rhs => rw [mcmcLoop, hst]
    simp only [Except.map]
    rw [if_neg (show ¬ (scaledState c st1).stop = true from hstop), if_pos (show (scaledEnv c e).nMax ≤ i + 1 from hn),
      if_neg hstop, if_pos hn]
  | case4 i st st1 hst hstop hn ih =>
    rw [mcmcLoop, mcmcStep_scaled, hst]
    conv_rhs => rw [mcmcLoop, hst]
    simp only [Except.map]
    rw [if_neg (show ¬ (scaledState c st1).stop = true from hstop), if_neg (show ¬ (scaledEnv c e).nMax ≤ i + 1 from hn),
      if_neg hstop, if_neg hn, ih]
    rfl

theorem mcmc_scaled (c : ℝ) (e : McmcEnv d B) (fuel : ℕ) (rnd : ℕ → ℕ → Draw d) (ws : List (Walker d B)) :
    mcmc (scaledEnv c e) fuel rnd (ws.map (scaledWalker c)) = (mcmc e fuel rnd ws).map (scaledResult c) := by
  have h0 : mcmcInit (scaledEnv c e) (ws.map (scaledWalker c)) = scaledState c (mcmcInit e ws) := by
    unfold mcmcInit
    simp only [scaledState]
    have hw : (ws.map (scaledWalker c)).map (fun w =>
        if (scaledEnv c e).kernel.hasFlow = true then
          { w with theta := ((scaledEnv c e).flowFwd w.u).1, logdetjFlow := ((scaledEnv c e).flowFwd w.u).2 }
        else { w with theta := w.u, logdetjFlow := fin 0 })
        = (ws.map fun w => if e.kernel.hasFlow = true then
          { w with theta := (e.flowFwd w.u).1, logdetjFlow := (e.flowFwd w.u).2 }
        else { w with theta := w.u, logdetjFlow := fin 0 }).map (scaledWalker c) := by
      rw [List.map_map, List.map_map]
      apply List.map_congr_left
      intro w _
      simp only [Function.comp]
      by_cases h : e.kernel.hasFlow = true
      · rw [if_pos h, if_pos (show (scaledEnv c e).kernel.hasFlow = true from h)]; rfl
      · rw [if_neg h, if_neg (show ¬ (scaledEnv c e).kernel.hasFlow = true from h)]; rfl
    rw [hw]
    have em : (scaledEnv c e).kernel = e.kernel := rfl
    rw [em, monitor_scaled]
    rfl
  unfold mcmc
  rw [h0, mcmcLoop_scaled]
  cases mcmcLoop e fuel rnd 0 (mcmcInit e ws) with
  | error x => rfl
  | ok q => rfl

/-! ### the steps of a run -/

noncomputable def scaledCur (c : ℝ) (q : Cur d B) : Cur d B := { q with it := scaledIter c q.it }

theorem gatherCur_scaled (c : ℝ) (past : Cols d (List B) List) (hB : Bool) (q : Cur d B) (idx : List ℕ) (w : List F)
    (beta logz ess : F) :
    gatherCur (scaledCols c past) hB (scaledCur c q) idx w beta logz ess =
      (gatherCur past hB q idx w beta logz ess).map (scaledCur c) := by
  unfold gatherCur
  refine bind_shift_id rfl fun _ _ => bind_shift_id rfl fun _ _ => bind_shift_id rfl fun _ _ => bind_shift_id rfl fun _ _ => ?_
  refine bind_shift_id rfl fun _ _ => bind_shift_id rfl fun _ _ => bind_shift_id rfl fun _ _ => bind_shift_id rfl fun _ _ => ?_
  refine bind_shift (getFlat_map _ _) fun l _ => bind_shift (gather_map l _ idx) fun _ _ => ?_
  dsimp only
  split_ifs
  · exact bind_shift_id rfl fun _ _ => rfl
  · rfl

theorem computeLogwLogz_scaled (c : ℝ) (past : Cols d (List B) List) (b : F) :
    computeLogwLogz (scaledCols c past) b = computeLogwLogz past b := rfl

theorem essAt_scaled (c : ℝ) (past : Cols d (List B) List) (m : Metric) (b : F) : essAt (scaledCols c past) m b = essAt past m b := rfl

theorem bisect_scaled (c : ℝ) (past : Cols d (List B) List) (m : Metric) (nEff : F) (n : ℕ) : ∀ lo hi : F,
    bisect (scaledCols c past) m nEff n lo hi = bisect past m nEff n lo hi := by
  induction n with
  | zero => intro lo hi; rfl
  | succ n ih =>
    intro lo hi
    unfold bisect
    simp only [essAt_scaled, ih]

theorem chooseBeta_scaled (c : ℝ) (past : Cols d (List B) List) (m : Metric) (nEff : F) (fuel : ℕ) :
    chooseBeta (scaledCols c past) m nEff fuel = chooseBeta past m nEff fuel := by
  unfold chooseBeta
  simp only [essAt_scaled, bisect_scaled, computeLogwLogz_scaled]
  rfl

theorem reweight_scaled (c k : ℝ) (e : SamplerEnv d B Φ) (fuel : ℕ) (s : Sampler d B Φ) (q : Cur d B) :
    reweight (scaledPrior c e) fuel (scaledSampler c k s) (scaledCur c q) =
      (reweight e fuel s q).map fun r => (scaledSampler c k r.1, scaledCur c r.2) := by
  unfold reweight
  refine bind_shift_id (chooseBeta_scaled c _ _ _ _) fun r _ => ?_
  refine bind_shift_id rfl fun wn _ => ?_
  refine bind_shift_id rfl fun tr _ => ?_
  exact bind_shift (gatherCur_scaled c _ _ q _ _ _ _ _) fun q' _ => rfl

theorem train_scaled (c k : ℝ) (e : SamplerEnv d B Φ) (rnd : Rnd d Φ) (s : Sampler d B Φ) (q : Cur d B) :
    train (scaledPrior c e) rnd (scaledSampler c k s) (scaledCur c q) = (train e rnd s q).map (scaledSampler c k) := by
  unfold train
  refine bind_shift_id rfl fun w _ => bind_shift_id rfl fun b _ => ?_
  cases b with
  | true => exact bind_shift_id rfl fun _ _ => bind_shift_id rfl fun _ _ => rfl
  | false => exact bind_shift_id rfl fun _ _ => rfl

theorem resampleStep_scaled (c k : ℝ) (e : SamplerEnv d B Φ) (rnd : Rnd d Φ) (s : Sampler d B Φ) (q : Cur d B) :
    resampleStep (scaledPrior c e) rnd (scaledSampler c k s) (scaledCur c q) = (resampleStep e rnd s q).map (scaledCur c) := by
  unfold resampleStep
  refine bind_shift_id rfl fun _ _ => bind_shift_id rfl fun _ _ => bind_shift_id rfl fun _ _ => ?_
  refine bind_shift_id rfl fun _ _ => bind_shift_id rfl fun _ _ => bind_shift_id rfl fun _ _ => ?_
  exact bind_shift (gather_map _ _ _) fun _ _ => bind_shift_id rfl fun _ _ => rfl

theorem toWalkers_scaled (c : ℝ) (it : Iter d (List B)) (hB : Bool) :
    toWalkers (scaledIter c it) hB = (toWalkers it hB).map (List.map (scaledWalker c)) := by
  unfold toWalkers
  have hp : List.length (scaledIter c it).logp = List.length it.logp := List.length_map ..
  have key : ∀ blobs : List (Option (List B)),
      (if List.length it.u = List.length it.x ∧ List.length it.logdetj = List.length it.x ∧
          List.length it.logl = List.length it.x ∧ List.length it.logp = List.length it.x ∧
          blobs.length = List.length it.x then
        (pure ((List.range (List.length it.x)).map fun k =>
          { theta := fun _ => nan, u := (List.getD it.u k fun _ => nan),
            x := (List.getD it.x k fun _ => nan), logdetj := List.getD it.logdetj k nan,
            logdetjFlow := nan, logl := List.getD it.logl k nan,
            logp := List.getD (scaledIter c it).logp k nan, blob := blobs.getD k none }) :
            Except PyErr (List (Walker d (List B))))
      else .error .indexError) =
      (if List.length it.u = List.length it.x ∧ List.length it.logdetj = List.length it.x ∧
          List.length it.logl = List.length it.x ∧ List.length it.logp = List.length it.x ∧
          blobs.length = List.length it.x then
        (pure ((List.range (List.length it.x)).map fun k =>
          { theta := fun _ => nan, u := (List.getD it.u k fun _ => nan),
            x := (List.getD it.x k fun _ => nan), logdetj := List.getD it.logdetj k nan,
            logdetjFlow := nan, logl := List.getD it.logl k nan,
            logp := List.getD it.logp k nan, blob := blobs.getD k none }) :
            Except PyErr (List (Walker d (List B))))
      else .error .indexError).map (List.map (scaledWalker c)) := by
    intro blobs
    split_ifs
    · simp only [pure, Except.pure, Except.map, List.map_map]
      congr 1
      apply List.map_congr_left
      intro k _
      simp only [Function.comp, scaledWalker, scaledIter]
      congr 1
      rw [List.getD_eq_getElem?_getD, List.getD_eq_getElem?_getD, List.getElem?_map]
      cases (it.logp : List F)[k]? <;> rfl
    · rfl
  simp only [hp]
  cases hB with
  | true =>
    have : (scaledIter c it).blobs = it.blobs := rfl
    simp only [this, if_true]
    cases (it.blobs : Option (List (List B))) with
    | none => rfl
    | some b => exact key _
  | false => exact key _

theorem mutate_scaled (c k : ℝ) (e : SamplerEnv d B Φ) (rnd : Rnd d Φ) (fuel : ℕ) (s : Sampler d B Φ) (q : Cur d B) :
    mutate (scaledPrior c e) rnd fuel (scaledSampler c k s) (scaledCur c q) =
      (mutate e rnd fuel s q).map fun r => (scaledSampler c k r.1, scaledCur c r.2) := by
  unfold mutate
  refine bind_shift (toWalkers_scaled c q.it _) fun ws _ => ?_
  have hk : kernelEnv (scaledPrior c e) (scaledSampler c k s) (scaledCur c q).it.beta = (kernelEnv e s q.it.beta).map (scaledEnv c) := by
    unfold kernelEnv
    exact bind_shift_id rfl fun g _ => bind_shift_id rfl fun _ _ => bind_shift_id rfl fun _ _ => rfl
  refine bind_shift hk fun kk _ => ?_
  refine bind_shift (mcmc_scaled c kk fuel _ ws) fun r _ => ?_
  have hw : writeBack (scaledSampler c k s) (scaledCur c q) (scaledResult c r) =
      (scaledSampler c k (writeBack s q r).1, scaledCur c (writeBack s q r).2) := by
    unfold writeBack scaledResult scaledCur scaledSampler scaledIter scaledWalker
    simp only [List.map_map]
    rfl
  rw [hw]
  rfl

theorem update_scaled (c : ℝ) (p : Particles d (List B)) (it : Iter d (List B)) :
    ({ past := scaledCols c p.past, resultsDict := p.resultsDict.map fun r => { r with cols := scaledCols c r.cols } } :
      Particles d (List B)).update (Cols.full (scaledIter c it)) =
    { past := scaledCols c (p.update (Cols.full it)).past
      resultsDict := (p.update (Cols.full it)).resultsDict.map fun r => { r with cols := scaledCols c r.cols } } := by
  unfold Particles.update Cols.full scaledCols scaledIter
  simp only [Option.toList, List.map_append, List.map_cons, List.map_nil]

theorem smcStep_scaled (c k : ℝ) (e : SamplerEnv d B Φ) (rnd : Rnd d Φ) (fuel : ℕ) (s : Sampler d B Φ) :
    smcStep (scaledPrior c e) rnd fuel (scaledSampler c k s) = (smcStep e rnd fuel s).map (scaledSampler c k) := by
  unfold smcStep
  refine bind_shift (f := scaledCur c) (by simp only [scaledSampler]; cases s.cur <;> rfl) fun q _ => ?_
  refine bind_shift (reweight_scaled c k e fuel s q) fun r hr => ?_
  obtain ⟨s1, q1⟩ := r
  refine bind_shift (train_scaled c k e rnd s1 q1) fun s2 h2 => ?_
  refine bind_shift (resampleStep_scaled c k e rnd s2 q1) fun q2 h3 => ?_
  refine bind_shift (mutate_scaled c k e rnd fuel s2 q2) fun r h4 => ?_
  obtain ⟨s3, q3⟩ := r
  dsimp only
  simp only [pure, Except.pure, Except.map]
  congr 1
  have := update_scaled c s3.particles q3.it
  simp only [scaledSampler, scaledCur, Option.map_some] at this ⊢
  rw [this]

noncomputable def scaledBatch (c : ℝ) (b : Batch d B) : Batch d B := { b with logp := b.logp.map (· + fin c) }

theorem warmupStep_scaled (c k : ℝ) (e : SamplerEnv d B Φ) (rnd : Rnd d Φ) (s : Sampler d B Φ) (i : ℕ) :
    warmupStep (scaledPrior c e) rnd (scaledSampler c k s) i = (warmupStep e rnd s i).map (scaledSampler c k) := by
  unfold warmupStep
  have hb : warmupBatch (scaledPrior c e) (scaledSampler c k s) i = (warmupBatch e s i).map fun r => (scaledBatch c r.1, r.2) := by
    unfold warmupBatch
    exact bind_shift_id rfl fun ps _ => bind_shift_id rfl fun u _ => bind_shift_id rfl fun inv _ => bind_shift_id rfl fun r _ => rfl
  refine bind_shift hb fun r _ => ?_
  obtain ⟨b0, hb0⟩ := r
  have hr : ∀ draw, replaceInf (scaledBatch c b0) hb0 draw = (replaceInf b0 hb0 draw).map (scaledBatch c) := by
    intro draw
    unfold replaceInf
    refine bind_shift_id rfl fun ds _ => ?_
    obtain ⟨dst, src⟩ := ds
    dsimp only
    split_ifs
    · rfl
    · refine bind_shift_id rfl fun _ _ => bind_shift_id rfl fun _ _ => bind_shift_id rfl fun _ _ => ?_
      refine bind_shift (copyRows_map _ _ _ _) fun _ _ => ?_
      exact bind_shift_id rfl fun _ _ => bind_shift_id rfl fun _ _ => rfl
  refine bind_shift (hr _) fun b _ => ?_
  simp only [pure, Except.pure, Except.map]
  congr 1
  have h1 : ∀ t calls nEff, warmupIter (scaledBatch c b) e.nActive t calls nEff
      = scaledIter c (warmupIter b e.nActive t calls nEff) := fun _ _ _ => rfl
  have h2 := update_scaled c s.particles (warmupIter b e.nActive s.t (s.calls + e.nActive) s.nEffective)
  have e1 : (scaledPrior c e).nActive = e.nActive := rfl
  rw [e1, h1]
  simp only [scaledSampler, Option.map_some] at h2 ⊢
  rw [← h2]
  rfl

/-! ### evidence -/

theorem evidenceOf_scaled (c : ℝ) (logl logp logdetj logq : List F) :
    evidenceOf logl (logp.map (· + fin c)) logdetj logq = evidenceOf (logl.map (· + fin c)) logp logdetj logq := by
  have : List.zipWith (· + ·) logl (logp.map (· + fin c)) = List.zipWith (· + ·) (logl.map (· + fin c)) logp := by
    induction logl generalizing logp with
    | nil => rfl
    | cons l logl ih =>
      cases logp with
      | nil => rfl
      | cons p logp =>
        simp only [List.map_cons, List.zipWith_cons_cons, ih]
        congr 1
        abel
  unfold evidenceOf
  rw [this]

theorem finalEvidence_scaled (c k : ℝ) (e : SamplerEnv d B Φ) (rnd : Rnd d Φ) (a : RunArgs) (s : Sampler d B Φ) (ha : s.nEvidence = a.nEvidence) :
    finalEvidence (scaledPrior c e) rnd (scaledSampler c k s) = (finalEvidence e rnd s).map (scaledSampler c (evidenceChange c e a)) := by
  unfold finalEvidence evidenceChange
  rw [← ha]
  by_cases h : s.nEvidence > 0 ∧ e.preconditioned = true
  · simp only [if_pos h]
    refine (if_pos h).trans ?_
    unfold computeEvidence
    refine bind_shift_id rfl fun inv _ => ?_
    have hp : ∀ xs, (scaledPrior c e).logPrior xs = (e.logPrior xs).map (· + fin c) := fun _ => rfl
    have h4 : ∀ l : List F, keepFinite l (l.map (· + fin c)) = (keepFinite l l).map (· + fin c) := fun l => maskSelect_map' _ _ _
    simp only [hp, keepFinite_units, h4]
    refine bind_shift_id rfl fun r _ => ?_
    obtain ⟨logl, bl, hb⟩ := r
    have h2 : ∀ a b c' d', (evidenceOf a b c' d').2 = lse (evidenceOf a b c' d').1 - log (F.ofNat (evidenceOf a b c' d').1.length) :=
      fun _ _ _ _ => rfl
    simp only [evidenceOf_scaled, h2, evidenceOf_shift, lse_add_fin, bootstrapErr_shift, List.length_map, add_fin_sub]
    rfl
  · simp only [if_neg h]
    refine (if_neg h).trans ?_
    refine bind_shift_id (computeLogwLogz_scaled c _ _) fun r _ => ?_
    simp only [pure, Except.pure, Except.map]
    congr 1
    have : r.2 + fin 0 = r.2 := add_zero _
    simp only [scaledSampler, Option.map_some, this]

/-! ### run -/

/-- The course of a part of a run. -/
noncomputable def partTrace (c k k' k2 : ℝ) (t : Trace d B Φ) : Trace d B Φ :=
  (t.1.map (scaledSave c k k'), t.2.map (scaledSampler c k2))

theorem andThen_partTrace (c k k' k1 k2 : ℝ) (a : Trace d B Φ) (f f' : Sampler d B Φ → Trace d B Φ)
    (h : ∀ s, a.2 = .ok s → f' (scaledSampler c k1 s) = partTrace c k k' k2 (f s)) :
    (partTrace c k k' k1 a).andThen f' = partTrace c k k' k2 (a.andThen f) := by
  obtain ⟨l, r⟩ := a
  cases r with
  | error x => rfl
  | ok s =>
    have := h s rfl
    unfold Trace.andThen partTrace
    dsimp only [Except.map] at this ⊢
    rw [this]
    unfold partTrace
    simp only [List.map_append]
    cases (f s).2 <;> rfl

theorem save_partTrace (c k k' : ℝ) (sv : Option ℕ) (t0 : ℕ) (s : Sampler d B Φ) :
    Trace.save sv t0 (scaledSampler c k s) = partTrace c k k' k (Trace.save sv t0 s) := by
  unfold Trace.save saveNow
  have : (scaledSampler c k s).t = s.t := rfl
  rw [this]
  cases sv with
  | none => rfl
  | some m =>
    dsimp only
    split_ifs <;> first | rfl | (simp [partTrace, scaledSave, Except.map])

theorem warmupLoop_scaled (c k k' : ℝ) (e : SamplerEnv d B Φ) (rnd : Rnd d Φ) (sv : Option ℕ) (t0 n : ℕ) : ∀ (i : ℕ) (s : Sampler d B Φ),
    warmupLoop (scaledPrior c e) rnd sv t0 n i (scaledSampler c k s) = partTrace c k k' k (warmupLoop e rnd sv t0 n i s) := by
  induction n with
  | zero => intro i s; rfl
  | succ n ih =>
    intro i s
    simp only [warmupLoop]
    rw [save_partTrace c k k']
    refine andThen_partTrace _ _ _ _ _ _ _ _ fun s1 h1 => ?_
    unfold Trace.lift
    rw [warmupStep_scaled]
    exact andThen_partTrace _ _ _ _ _ ([], _) _ _ fun s2 h2 => ih (i + 1) s2

theorem notTermination_scaled (c k : ℝ) (e : SamplerEnv d B Φ) (s : Sampler d B Φ) :
    notTermination (scaledPrior c e) (scaledSampler c k s) = notTermination e s := by
  unfold notTermination
  have : essAt (scaledSampler c k s).particles.past (scaledPrior c e).metric (fin 1) = essAt s.particles.past e.metric (fin 1) :=
    essAt_scaled c _ _ _
  rw [this]
  simp only [scaledSampler]
  cases s.cur <;> rfl

theorem smcLoop_scaled (c k k' : ℝ) (e : SamplerEnv d B Φ) (rnd : Rnd d Φ) (fuel : ℕ) (sv : Option ℕ) (t0 n : ℕ) : ∀ s : Sampler d B Φ,
    smcLoop (scaledPrior c e) rnd fuel sv t0 n (scaledSampler c k s) = partTrace c k k' k (smcLoop e rnd fuel sv t0 n s) := by
  induction n with
  | zero =>
    intro s
    unfold smcLoop
    rw [notTermination_scaled c k e s]
    cases notTermination e s with
    | error x => rfl
    | ok b => cases b <;> rfl
  | succ n ih =>
    intro s
    unfold smcLoop
    rw [notTermination_scaled c k e s]
    cases notTermination e s with
    | error x => rfl
    | ok b =>
      cases b with
      | false => rfl
      | true =>
        dsimp only
        rw [save_partTrace c k k']
        refine andThen_partTrace _ _ _ _ _ _ _ _ fun s1 h1 => ?_
        unfold Trace.lift
        rw [smcStep_scaled]
        exact andThen_partTrace _ _ _ _ _ ([], _) _ _ fun s2 h2 => ih s2

theorem runInit_scaled (c k : ℝ) (e : SamplerEnv d B Φ) (rnd : Rnd d Φ) (a : RunArgs) (s : Sampler d B Φ) :
    runInit (scaledPrior c e) rnd a (scaledSampler c k s) = (runInit e rnd a s).map (scaledSampler c k) := by
  unfold runInit
  have : (scaledSampler c k s).priorSamples = s.priorSamples := rfl
  dsimp only
  rw [this]
  cases s.priorSamples with
  | some ps => rfl
  | none => exact bind_shift_id rfl fun _ _ => rfl

theorem runInit_nEvidence {e : SamplerEnv d B Φ} {rnd : Rnd d Φ} {a : RunArgs} {s s' : Sampler d B Φ} (h : runInit e rnd a s = .ok s') :
    s'.nEvidence = a.nEvidence := by
  unfold runInit at h
  dsimp only at h
  cases hq : s.priorSamples with
  | some ps => rw [hq] at h; cases h; rfl
  | none =>
    rw [hq] at h
    obtain ⟨_, -, h⟩ := bind_ok h
    cases h; rfl

theorem smcLoop_nEvidence {e : SamplerEnv d B Φ} {rnd : Rnd d Φ} {fuel : ℕ} {sv : Option ℕ} {t0 n : ℕ} :
    ∀ {s r : Sampler d B Φ}, (smcLoop e rnd fuel sv t0 n s).2 = .ok r → r.nEvidence = s.nEvidence := by
  induction n with
  | zero =>
    intro s r h
    rcases smcLoop_cases h with ⟨-, rfl⟩ | ⟨m, s', hm, -⟩
    · rfl
    · omega
  | succ n ih =>
    intro s r h
    rcases smcLoop_cases h with ⟨-, rfl⟩ | ⟨m, s', hm, -, h2, h3⟩
    · rfl
    · obtain rfl : n = m := by omega
      exact (ih h3).trans (smcStep_args h2).2

/-- C139.  A run needs the prior density only up to a constant factor.  With `c` added to every log-prior density and the same
random numbers, a whole run, new or resumed, does the same: every state it saves and the state it ends in are those of the
original run with `c` added to the stored log-priors, and any exception is the same.  Points, weights, temperatures,
log-likelihoods, recorded log-evidences, acceptance rates, step counts, counters, flow, geometry and blobs do not change.  The
log-evidence the run reports at the end is unchanged if it comes from the tempering weights, and changes by exactly `c` if it is
estimated by importance sampling from the flow (`k` is the change in one left by an earlier run).  Nothing is assumed finite. -/
theorem C139_prior_constant (c k : ℝ) (e : SamplerEnv d B Φ) (rnd : Rnd d Φ) (fuel n : ℕ) (a : RunArgs) (s : Sampler d B Φ) :
    run (scaledPrior c e) rnd fuel n a (scaledSampler c k s) = scaledTrace c k (evidenceChange c e a) (run e rnd fuel n a s) := by
  change _ = partTrace c k (evidenceChange c e a) (evidenceChange c e a) (run e rnd fuel n a s)
  unfold run
  dsimp only
  unfold Trace.lift
  rw [runInit_scaled]
  refine andThen_partTrace c k (evidenceChange c e a) k _ ([], _) _ _ fun s1 h1 => ?_
  have ht : (scaledSampler c k s).t = s.t := rfl
  have hw : runWarmup (scaledPrior c e) rnd a s.t (scaledSampler c k s1) =
      partTrace c k (evidenceChange c e a) k (runWarmup e rnd a s.t s1) := by
    unfold runWarmup
    have e1 : (scaledSampler c k s1).warmup = s1.warmup := rfl
    have e2 : (scaledPrior c e).nActive = e.nActive := rfl
    rw [e1, e2]
    split_ifs
    · rfl
    · refine Eq.trans (congrArg (fun t => Trace.andThen t _) (warmupLoop_scaled c k (evidenceChange c e a) e rnd _ _ _ 0 s1)) ?_
      exact andThen_partTrace _ _ _ _ _ _ _ _ fun s2 _ => rfl
    · rfl
  rw [ht, hw]
  refine andThen_partTrace _ _ _ _ _ _ _ _ fun s2 h2 => ?_
  rw [smcLoop_scaled c k (evidenceChange c e a)]
  refine andThen_partTrace _ _ _ _ _ _ _ _ fun s3 h3 => ?_
  rw [finalEvidence_scaled c k e rnd a s3 (by rw [smcLoop_nEvidence h3, (runWarmup_kept h2).2.1, runInit_nEvidence h1])]
  refine andThen_partTrace c k _ (evidenceChange c e a) _ ([], _) _ _ fun s4 _ => ?_
  cases a.saveEvery with
  | none => rfl
  | some m => simp [partTrace, scaledSave, Except.map]

/-- C139 for a new sampler: the same sampler can be given either prior. -/
theorem C139_fresh (c : ℝ) (e : SamplerEnv d B Φ) (rnd : Rnd d Φ) (fuel n : ℕ) (a : RunArgs) (s : Sampler d B Φ)
    (h1 : s.particles = Particles.init) (h2 : s.cur = none) (h3 : s.logz = none) :
    run (scaledPrior c e) rnd fuel n a s = scaledTrace c 0 (evidenceChange c e a) (run e rnd fuel n a s) := by
  have hs : scaledSampler c 0 s = s := by
    unfold scaledSampler
    rw [h1, h2, h3]
    obtain ⟨⟩ := s
    simp only at h1 h2 h3
    subst h1 h2 h3
    rfl
  have := C139_prior_constant c 0 e rnd fuel n a s
  rwa [hs] at this

theorem postCollect_scaled (c k : ℝ) (a : PostArgs) (s : Sampler d B Φ) :
    postCollect a (scaledSampler c k s) = (postCollect a s).map fun p => { p with logp := p.logp.map (· + fin c) } := by
  unfold postCollect
  have : (scaledSampler c k s).haveBlobs = s.haveBlobs := rfl
  rw [this]
  split_ifs
  · rfl
  refine bind_shift_id rfl fun _ _ => bind_shift_id rfl fun _ _ => bind_shift (getFlat_map _ _) fun _ _ => ?_
  exact bind_shift_id rfl fun _ _ => bind_shift_id rfl fun _ _ => rfl

theorem postTrim_scaled (c : ℝ) (a : PostArgs) (p : Post d B) :
    postTrim a { p with logp := p.logp.map (· + fin c) } =
      (postTrim a p).map fun p => { p with logp := p.logp.map (· + fin c) } := by
  unfold postTrim
  split_ifs
  · refine bind_shift_id rfl fun _ _ => bind_shift_id rfl fun _ _ => ?_
    refine bind_shift_id rfl fun _ _ => bind_shift (gather_map _ _ _) fun _ _ => ?_
    exact bind_shift_id rfl fun _ _ => bind_shift_id rfl fun _ _ => rfl
  · rfl

theorem postReturn_scaled (c : ℝ) (r : ResampleKind) (us : ℕ → ℝ) (u : ℝ) (a : PostArgs) (p : Post d B) :
    postReturn r us u a { p with logp := p.logp.map (· + fin c) } =
      (postReturn r us u a p).map fun p => { p with logp := p.logp.map (· + fin c) } := by
  unfold postReturn
  split_ifs
  · refine bind_shift_id rfl fun _ _ => bind_shift_id rfl fun _ _ => ?_
    refine bind_shift_id rfl fun _ _ => bind_shift (gather_map _ _ _) fun _ _ => ?_
    exact bind_shift_id rfl fun _ _ => rfl
  · rfl
  · rfl

/-- C139, what the user reads off afterwards: `posterior` with any options returns the same samples, weights, log-likelihoods
and blobs, and the log-priors with `c` added; `evidence` returns the same error and the changed log-evidence. -/
theorem C139_outputs (c k : ℝ) (e : SamplerEnv d B Φ) (us : ℕ → ℝ) (u : ℝ) (a : PostArgs) (s : Sampler d B Φ) :
    posterior (scaledPrior c e) us u a (scaledSampler c k s) = (posterior e us u a s).map (fun o =>
        { o with logp := o.logp.map (· + fin c) }) ∧
      evidence (scaledSampler c k s) = ((evidence s).1.map (· + fin k), (evidence s).2) := by
  refine ⟨?_, rfl⟩
  unfold posterior
  refine bind_shift (postCollect_scaled c k a s) fun p _ => bind_shift (postTrim_scaled c a p) fun p _ => ?_
  exact postReturn_scaled c _ us u a p

/-- A run that ends, preconditioned and with an evidence estimate: with `log 3` added to the log-prior it ends in the same state
but for the log-priors and the log-evidence, larger by `log 3`; without the estimate the log-evidence stays. -/
example : (∃ s', (run (Demo.env true) Demo.rnd 0 1 (Demo.args 5) Demo.start).2 = .ok s' ∧
      (run (scaledPrior (Real.log 3) (Demo.env true)) Demo.rnd 0 1 (Demo.args 5) Demo.start).2
        = .ok (scaledSampler (Real.log 3) (Real.log 3) s')) ∧
    ∃ s', (run (Demo.env true) Demo.rnd 0 1 (Demo.args 0) Demo.start).2 = .ok s' ∧
      (run (scaledPrior (Real.log 3) (Demo.env true)) Demo.rnd 0 1 (Demo.args 0) Demo.start).2
        = .ok (scaledSampler (Real.log 3) 0 s') := by
  constructor
  · obtain ⟨s', -, h, -⟩ := Demo.first_run true 5
    refine ⟨s', h, ?_⟩
    rw [C139_fresh _ _ _ _ _ _ _ rfl rfl rfl]
    have hc : evidenceChange (Real.log 3) (Demo.env true) (Demo.args 5) = Real.log 3 := if_pos ⟨by simp [Demo.args], rfl⟩
    simp only [scaledTrace, h, Except.map, hc]
  · obtain ⟨s', -, h, -⟩ := Demo.first_run true 0
    refine ⟨s', h, ?_⟩
    rw [C139_fresh _ _ _ _ _ _ _ rfl rfl rfl]
    have hc : evidenceChange (Real.log 3) (Demo.env true) (Demo.args 0) = 0 := if_neg (by simp [Demo.args])
    simp only [scaledTrace, h, Except.map, hc]

end Poco
