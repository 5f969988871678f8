import Verif.Spec.Progress
import Verif.Props.Reweight
import Verif.Props.Total
import Verif.Props.Demo

/-! C143: the progress bar shows the iterations as they are recorded and does not matter for the run. -/

namespace Poco
open F Spec

variable {d : ℕ} {B Φ : Type}

theorem mcmcStep_calls_le {e : McmcEnv d B} {fuel : ℕ} {rnd : ℕ → Draw d} {i : ℕ} {st st' : McmcState d B}
    (h : mcmcStep e fuel rnd i st = .ok st') : st.calls ≤ st'.calls := by
  unfold mcmcStep at h
  obtain ⟨cands, -, h⟩ := bind_ok h
  obtain ⟨⟨props, ev, n⟩, -, h⟩ := bind_ok h
  dsimp only at h
  split_ifs at h <;>
  · simp only [pure, Except.pure, Except.ok.injEq] at h
    rw [← h]
    exact Nat.le_add_right _ _

theorem mcmcLoop_calls_le {e : McmcEnv d B} {fuel : ℕ} {rnd : ℕ → ℕ → Draw d} (i : ℕ) (st : McmcState d B) {r : McmcState d B × ℕ}
    (h : mcmcLoop e fuel rnd i st = .ok r) : st.calls ≤ r.1.calls := by
  revert h
  induction i, st using mcmcLoop.induct e fuel rnd with
  | case1 i st x hx => intro h; rw [mcmcLoop, hx] at h; cases h
  | case2 i st st' hx hs =>
    intro h
    rw [mcmcLoop, hx] at h
    simp only [hs, if_true, Except.ok.injEq] at h
    rw [← h]
    exact mcmcStep_calls_le hx
  | case3 i st st' hx hs hm =>
    intro h
    rw [mcmcLoop, hx] at h
    simp only [hs, if_pos hm, if_false, Except.ok.injEq, Bool.false_eq_true] at h
    rw [← h]
    exact mcmcStep_calls_le hx
  | case4 i st st' hx hs hm ih =>
    intro h
    rw [mcmcLoop, hx] at h
    simp only [hs, if_neg hm, if_false, Bool.false_eq_true] at h
    exact (mcmcStep_calls_le hx).trans (ih h)

theorem mcmcLoopShown_eq (e : McmcEnv d B) (fuel : ℕ) (rnd : ℕ → ℕ → Draw d) (i : ℕ) (st : McmcState d B) (b : Bar) :
    mcmcLoopShown e fuel rnd i st b = (mcmcLoop e fuel rnd i st).map fun r => (r, barStep b (r.1.calls - st.calls) r.2 r.1) := by
  induction i, st using mcmcLoop.induct e fuel rnd generalizing b with
  | case1 i st x hx => rw [mcmcLoopShown, mcmcLoop, hx]; rfl
  | case2 i st st' hx hs => rw [mcmcLoopShown, mcmcLoop, hx]; simp [hs, Except.map]
  | case3 i st st' hx hs hm => rw [mcmcLoopShown, mcmcLoop, hx]; simp [hs, hm, Except.map]
  | case4 i st st' hx hs hm ih =>
    rw [mcmcLoopShown, mcmcLoop, hx]
    simp only [hs, if_neg hm, if_false, Bool.false_eq_true]
    rw [ih]
    cases hr : mcmcLoop e fuel rnd (i + 1) st' with
    | error x => rfl
    | ok r =>
      have h1 := mcmcStep_calls_le hx
      have h2 := mcmcLoop_calls_le _ _ hr
      simp only [Except.map, Except.ok.injEq, Prod.mk.injEq, true_and, barStep]
      congr 1
      omega

/-- The bar after the iteration `it` was made of `old`. -/
noncomputable def barAfter (b : Bar) (old it : Iter d (List B)) : Bar :=
  { b with calls := b.calls + (it.calls - old.calls), acc := it.accept, steps := it.steps,
           logP := mean (List.zipWith (· + ·) it.logl it.logp), eff := it.efficiency }

theorem zipWith_map_map {α : Type} (f g : α → F) (l : List α) :
    List.zipWith (· + ·) (l.map f) (l.map g) = l.map fun w => f w + g w := by
  induction l with
  | nil => rfl
  | cons a l ih => simp [ih]

theorem mutateShown_eq (e : SamplerEnv d B Φ) (rnd : Rnd d Φ) (fuel : ℕ) (s : Sampler d B Φ) (c : Cur d B) (b : Bar) :
    mutateShown e rnd fuel s c b = (mutate e rnd fuel s c).map fun q => (q, barAfter b c.it q.2.it) := by
  unfold mutateShown mutate
  cases toWalkers c.it s.haveBlobs with
  | error x => rfl
  | ok ws =>
    cases kernelEnv e s c.it.beta with
    | error x => rfl
    | ok k =>
      simp only [bind, Except.bind, mcmcShown, mcmc, mcmcLoopShown_eq]
      cases mcmcLoop k fuel (rnd.mcmc s.t) 0 (mcmcInit k ws) with
      | error x => rfl
      | ok r =>
        obtain ⟨st, i⟩ := r
        simp only [Except.map, pure, Except.pure, Except.ok.injEq, Prod.mk.injEq, true_and]
        simp only [barStep, barAfter, writeBack, Bar.mk.injEq, true_and, and_true, zipWith_map_map]
        simp [mcmcInit]

/-- The effective size `_reweight` records is a number, on a history of numbers. -/
theorem chooseBeta_ess {past : Cols d (List B) List} {h : List Stage} {n : ℕ} (hr : Rect h n) (hh : Holds past h)
    {m : Metric} {nEff : F} {fuel : ℕ} {beta logz ess : F} (b : ℝ) (hb : b ≤ 1) (hlast : past.beta.getLast? = some (fin b))
    (hc : chooseBeta past m nEff fuel = .ok (beta, logz, ess)) : ∃ r, ess = fin r := by
  have hbis : ∀ (k : ℕ) (lo hi : ℝ) {q : F × F}, bisect past m nEff k (fin lo) (fin hi) = .ok q → ∃ r, q.2 = fin r := by
    intro k
    induction k with
    | zero => intro lo hi q h; cases h
    | succ k ih =>
      intro lo hi q h
      unfold bisect at h
      have hmid : (fin hi + fin lo) * fin 0.5 = fin ((hi + lo) * 0.5) := rfl
      simp only [hmid, essAt_fin past _ n hr hh] at h
      split_ifs at h
      · simp only [Except.ok.injEq] at h
        exact ⟨_, by rw [← h]⟩
      · exact ih _ _ h
      · exact ih _ _ h
  simp only [chooseBeta] at hc
  obtain ⟨bp, h1, hc⟩ := bind_ok hc
  obtain ⟨ep, h2, hc⟩ := bind_ok hc
  obtain ⟨em, h3, hc⟩ := bind_ok hc
  rw [getAt_neg_one hlast, Except.ok.injEq] at h1
  subst h1
  rw [essAt_fin past _ n hr hh, Except.ok.injEq] at h2 h3
  split_ifs at hc
  · obtain ⟨z, h4, hc⟩ := bind_ok hc
    simp only [pure, Except.pure, Except.ok.injEq, Prod.mk.injEq] at hc
    exact ⟨_, by rw [← hc.2.2, ← h2]⟩
  · obtain ⟨⟨lw, z⟩, h4, hc⟩ := bind_ok hc
    simp only [pure, Except.pure, Except.ok.injEq, Prod.mk.injEq] at hc
    exact ⟨_, by rw [← hc.2.2, ← h3]⟩
  · obtain ⟨⟨b2, e2⟩, h4, hc⟩ := bind_ok hc
    obtain ⟨⟨lw, z⟩, h5, hc⟩ := bind_ok hc
    simp only [pure, Except.pure, Except.ok.injEq, Prod.mk.injEq] at hc
    obtain ⟨r, hr⟩ := hbis _ _ _ h4
    exact ⟨r, by rw [← hc.2.2]; exact hr⟩

theorem gatherCur_keeps {past : Cols d (List B) List} {hb : Bool} {c c' : Cur d B} {idx : List ℕ} {w : List F} {beta logz ess : F}
    (g : gatherCur past hb c idx w beta logz ess = .ok c') :
    c'.it.calls = c.it.calls ∧ c'.it.beta = beta ∧ c'.it.logz = logz ∧ c'.it.ess = ess := by
  unfold gatherCur at g
  obtain ⟨_, -, g⟩ := bind_ok g
  obtain ⟨_, -, g⟩ := bind_ok g
  obtain ⟨_, -, g⟩ := bind_ok g
  obtain ⟨_, -, g⟩ := bind_ok g
  obtain ⟨_, -, g⟩ := bind_ok g
  obtain ⟨_, -, g⟩ := bind_ok g
  obtain ⟨_, -, g⟩ := bind_ok g
  obtain ⟨_, -, g⟩ := bind_ok g
  obtain ⟨_, -, g⟩ := bind_ok g
  obtain ⟨_, -, g⟩ := bind_ok g
  split_ifs at g
  all_goals
    obtain ⟨_, -, g⟩ := bind_ok g
    simp only [pure, Except.pure, Except.ok.injEq] at g
    rw [← g]
    exact ⟨rfl, rfl, rfl, rfl⟩

theorem resampleStep_keeps {e : SamplerEnv d B Φ} {rnd : Rnd d Φ} {s : Sampler d B Φ} {c c' : Cur d B}
    (g : resampleStep e rnd s c = .ok c') :
    c'.it.calls = c.it.calls ∧ c'.it.beta = c.it.beta ∧ c'.it.logz = c.it.logz ∧ c'.it.ess = c.it.ess := by
  unfold resampleStep at g
  obtain ⟨_, -, g⟩ := bind_ok g
  obtain ⟨_, -, g⟩ := bind_ok g
  obtain ⟨_, -, g⟩ := bind_ok g
  obtain ⟨_, -, g⟩ := bind_ok g
  obtain ⟨_, -, g⟩ := bind_ok g
  obtain ⟨_, -, g⟩ := bind_ok g
  obtain ⟨_, -, g⟩ := bind_ok g
  obtain ⟨_, -, g⟩ := bind_ok g
  simp only [pure, Except.pure, Except.ok.injEq] at g
  rw [← g]
  exact ⟨rfl, rfl, rfl, rfl⟩

theorem mutate_keeps {e : SamplerEnv d B Φ} {rnd : Rnd d Φ} {fuel : ℕ} {s s' : Sampler d B Φ} {c c' : Cur d B}
    (h : mutate e rnd fuel s c = .ok (s', c')) :
    c.it.calls ≤ c'.it.calls ∧ c'.it.beta = c.it.beta ∧ c'.it.logz = c.it.logz ∧ c'.it.ess = c.it.ess ∧ s'.particles = s.particles := by
  obtain ⟨ws, k, r, -, -, -, h5⟩ := mutate_ok h
  simp only [writeBack, Prod.mk.injEq] at h5
  obtain ⟨rfl, rfl⟩ := h5
  exact ⟨Nat.le_add_right _ _, rfl, rfl, rfl, rfl⟩

/-- An iteration of the main loop, with the bar. -/
theorem smcStepShown_ok {e : SamplerEnv d B Φ} {rnd : Rnd d Φ} {fuel : ℕ} {D D' : Display d B Φ} {p q : ℕ}
    (hD : ∀ c, D.state.cur = some c → D.bar.calls + p = c.it.calls + q) (h : smcStepShown e rnd fuel D = .ok D') :
    smcStep e rnd fuel D.state = .ok D'.state ∧ D'.log = D.log ++ [D'.bar] ∧
      (D'.bar.iter = D.bar.iter + 1 ∧ D'.bar.visible = D.bar.visible ∧ D'.state.t = D.state.t + 1) ∧
      ∃ c, D'.state.cur = some c ∧ D'.state.particles = D.state.particles.update (Cols.full c.it) ∧ Shows p q D'.bar c.it := by
  unfold smcStepShown at h
  obtain ⟨c, h0, h⟩ := bind_ok h
  obtain ⟨⟨s1, c1⟩, h1, h⟩ := bind_ok h
  obtain ⟨b, hb, h⟩ := bind_ok h
  obtain ⟨s2, h2, h⟩ := bind_ok h
  obtain ⟨c2, h3, h⟩ := bind_ok h
  obtain ⟨⟨⟨s3, c3⟩, b'⟩, h4, h⟩ := bind_ok h
  simp only [pure, Except.pure, Except.ok.injEq] at h
  subst h
  rw [mutateShown_eq] at h4
  obtain ⟨⟨s3', c3'⟩, h5, he⟩ := map_ok h4
  simp only [Prod.mk.injEq] at he
  obtain ⟨⟨rfl, rfl⟩, rfl⟩ := he
  obtain ⟨nEff, beta, logz, ess, w, tr, -, -, -, g, rfl⟩ := reweight_ok h1
  have hstep : smcStep e rnd fuel D.state = .ok { s3' with cur := some c3', particles := s3'.particles.update (Cols.full c3'.it) } := by
    unfold smcStep
    simp only [h0, h1, h2, h3, h5, bind, Except.bind, pure, Except.pure]
  obtain ⟨g1, g2, g3, g4⟩ := gatherCur_keeps g
  obtain ⟨r1, r2, r3, r4⟩ := resampleStep_keeps h3
  obtain ⟨m1, m2, m3, m4, m5⟩ := mutate_keeps h5
  have h2' : s2.particles = D.state.particles := by
    rcases train_ok h2 with ⟨-, f, g, rfl⟩ | ⟨-, g, rfl⟩ <;> rfl
  have hcalls := hD c (orErr_ok h0)
  unfold barReweight at hb
  obtain ⟨n, hn, hb⟩ := bind_ok hb
  simp only [pure, Except.pure, Except.ok.injEq] at hb
  subst hb
  refine ⟨hstep, rfl, ⟨rfl, rfl, (smcStep_keep hstep).2⟩, c3', rfl, ?_, ?_⟩
  · show s3'.particles.update _ = _
    rw [m5, h2']
  · refine ⟨?_, ?_, ?_, ?_, rfl, rfl, rfl, rfl⟩
    · show D.bar.calls + (c3'.it.calls - c2.it.calls) + p = _
      omega
    · show c1.it.beta = _
      rw [m2, r2]
    · rw [m4, r4]
      cases hh : c1.it.ess with
      | nan => rw [hh] at hn; cases hn
      | ninf => rw [hh] at hn; cases hn
      | pinf => rw [hh] at hn; cases hn
      | fin r =>
        rw [hh] at hn
        simp only [pyInt, Except.ok.injEq] at hn
        exact ⟨r, rfl, by rw [hn]; rfl⟩
    · show c1.it.logz = _
      rw [m3, r3]

/-- On a history of numbers the bar cannot make an iteration fail. -/
theorem smcStepShown_state {e : SamplerEnv d B Φ} {rnd : Rnd d Φ} {fuel : ℕ} {D : Display d B Φ} {H : List Stage} {n : ℕ}
    (hr : Rect H n) (hh : Holds D.state.particles.past H) (b : ℝ) (hb : b ≤ 1)
    (hlast : D.state.particles.past.beta.getLast? = some (fin b)) :
    (smcStepShown e rnd fuel D).map Display.state = smcStep e rnd fuel D.state := by
  unfold smcStepShown smcStep
  dsimp only
  cases h0 : orErr PyErr.attributeError D.state.cur with
  | error x => rfl
  | ok c =>
    simp only [bind, Except.bind]
    cases h1 : reweight e fuel D.state c with
    | error x => rfl
    | ok q =>
      obtain ⟨s1, c1⟩ := q
      obtain ⟨nEff, beta, logz, ess, w, tr, k1, -, -, g, rfl⟩ := reweight_ok h1
      obtain ⟨r, hess⟩ := chooseBeta_ess hr hh b hb hlast k1
      have hb' : barReweight c1 D.bar
          = .ok { D.bar with iter := D.bar.iter + 1, beta := c1.it.beta, ess := F.ofNat ⌊r⌋₊, logZ := c1.it.logz } := by
        unfold barReweight
        rw [(gatherCur_keeps g).2.2.2, hess]
        rfl
      simp only [hb']
      cases h2 : train e rnd { D.state with t := D.state.t + 1, nEffective := nEff } c1 with
      | error x => rfl
      | ok s2 =>
        dsimp only
        cases h3 : resampleStep e rnd s2 c1 with
        | error x => rfl
        | ok c2 =>
          dsimp only
          rw [mutateShown_eq]
          cases mutate e rnd fuel s2 c2 with
          | error x => rfl
          | ok q => rfl

theorem getAt_concat {α : Type} (l : List α) (a : α) : getAt (l ++ [a]) (-1) = .ok a := getAt_neg_one (by simp)

theorem barWarmup_eq (p : Particles d (List B)) (it : Iter d (List B)) (b : Bar) :
    barWarmup (p.update (Cols.full it)).past b = (pyInt it.ess).map fun n =>
      { b with iter := b.iter + 1, calls := it.calls, beta := it.beta, ess := F.ofNat n, logZ := it.logz,
               logP := mean (List.zipWith (· + ·) it.logp it.logl), acc := it.accept, steps := it.steps, eff := it.efficiency } := by
  have e1 : (p.update (Cols.full it)).past.calls = p.past.calls ++ [it.calls] := rfl
  have e2 : (p.update (Cols.full it)).past.beta = p.past.beta ++ [it.beta] := rfl
  have e3 : (p.update (Cols.full it)).past.ess = p.past.ess ++ [it.ess] := rfl
  have e4 : (p.update (Cols.full it)).past.logz = p.past.logz ++ [it.logz] := rfl
  have e5 : (p.update (Cols.full it)).past.logp = p.past.logp ++ [it.logp] := rfl
  have e6 : (p.update (Cols.full it)).past.logl = p.past.logl ++ [it.logl] := rfl
  have e7 : (p.update (Cols.full it)).past.accept = p.past.accept ++ [it.accept] := rfl
  have e8 : (p.update (Cols.full it)).past.steps = p.past.steps ++ [it.steps] := rfl
  have e9 : (p.update (Cols.full it)).past.efficiency = p.past.efficiency ++ [it.efficiency] := rfl
  unfold barWarmup
  simp only [e1, e2, e3, e4, e5, e6, e7, e8, e9, getAt_concat, bind, Except.bind]
  cases pyInt it.ess with
  | error x => rfl
  | ok n => rfl

/-- A warm-up iteration with the bar: the bar cannot make it fail, and shows it. -/
theorem warmupStepShown_eq (e : SamplerEnv d B Φ) (rnd : Rnd d Φ) (D : Display d B Φ) (i : ℕ) :
    (∀ x, warmupStep e rnd D.state i = .error x → warmupStepShown e rnd D i = .error x) ∧
    ∀ s', warmupStep e rnd D.state i = .ok s' → ∃ D', warmupStepShown e rnd D i = .ok D' ∧ D'.state = s' ∧
      D'.log = D.log ++ [D'.bar] ∧
      (D'.bar.iter = D.bar.iter + 1 ∧ D'.bar.visible = D.bar.visible ∧ D'.state.t = D.state.t + 1) ∧
      ∃ c, D'.state.cur = some c ∧ D'.state.particles = D.state.particles.update (Cols.full c.it) ∧ Shows 0 0 D'.bar c.it := by
  refine ⟨fun x h => by unfold warmupStepShown; rw [h]; rfl, fun s' h => ?_⟩
  obtain ⟨b0, hb, b, -, -, rfl⟩ := warmupStep_shape h
  unfold warmupStepShown
  rw [h]
  simp only [bind, Except.bind, barWarmup_eq]
  have hn : pyInt (warmupIter b e.nActive D.state.t (D.state.calls + e.nActive) D.state.nEffective).ess = .ok D.state.nEffective := by
    show Except.ok ⌊((D.state.nEffective : ℕ) : ℝ)⌋₊ = _
    rw [Nat.floor_natCast]
  simp only [hn, Except.map, pure, Except.pure]
  refine ⟨_, rfl, rfl, rfl, ⟨rfl, rfl, rfl⟩, _, rfl, rfl, ⟨rfl, rfl, ⟨D.state.nEffective, rfl, ?_⟩, rfl, ?_, rfl, rfl, rfl⟩⟩
  · show F.ofNat _ = _
    rw [Nat.floor_natCast]
    rfl
  · show mean (List.zipWith _ _ _) = _
    rw [List.zipWith_comm_of_comm]
    intro a b
    exact add_comm a b

/-! ### the loops -/

/-- From one display to a later one: the iterations stored in between and what was shown of them. -/
def Advanced (p q : ℕ) (D D' : Display d B Φ) : Prop :=
  ∃ new l, (∀ its, D.state.particles.past = columns its → D'.state.particles.past = columns (its ++ new)) ∧ D'.log = D.log ++ l ∧
    Displayed p q D.bar.iter l new ∧ (D'.bar.iter = D.bar.iter + new.length ∧ D'.bar.visible = D.bar.visible ∧ D'.state.t = D.state.t + new.length) ∧
    (new = [] → D'.state.cur = D.state.cur ∧ D'.bar = D.bar) ∧ (new ≠ [] → ∀ c, D'.state.cur = some c → D'.bar.calls + p = c.it.calls + q)

theorem Advanced.refl (p q : ℕ) (D : Display d B Φ) : Advanced p q D D :=
  ⟨[], [], fun its h => by simpa using h, by simp, ⟨.nil, rfl⟩, ⟨rfl, rfl, rfl⟩, fun _ => ⟨rfl, rfl⟩, fun h => absurd rfl h⟩

theorem Advanced.trans {p q : ℕ} {D D' D'' : Display d B Φ} (h : Advanced p q D D') (h' : Advanced p q D' D'') : Advanced p q D D'' := by
  obtain ⟨n1, l1, a1, a2, a3, ⟨a4, a7, a8⟩, a5, a6⟩ := h
  obtain ⟨n2, l2, b1, b2, b3, ⟨b4, b7, b8⟩, b5, b6⟩ := h'
  refine ⟨n1 ++ n2, l1 ++ l2, fun its hi => ?_, ?_, ⟨?_, ?_⟩, ?_, ?_, ?_⟩
  · rw [← List.append_assoc]
    exact b1 _ (a1 its hi)
  · rw [b2, a2, List.append_assoc]
  · exact List.rel_append a3.shows b3.shows
  · rw [List.map_append, a3.counter, b3.counter, a4, List.length_append, List.range_add, List.map_append, List.map_map]
    congr 1
    apply List.map_congr_left
    intro k _
    simp only [Function.comp]
    omega
  · rw [b4, a4, b7, a7, b8, a8, List.length_append]
    exact ⟨by omega, rfl, by omega⟩
  · intro h
    obtain ⟨rfl, rfl⟩ := List.append_eq_nil_iff.1 h
    exact ⟨(b5 rfl).1.trans (a5 rfl).1, (b5 rfl).2.trans (a5 rfl).2⟩
  · intro hne c hc
    by_cases h2 : n2 = []
    · subst h2
      obtain ⟨k1, k2⟩ := b5 rfl
      rw [k2]
      exact a6 (by simpa using hne) c (k1 ▸ hc)
    · exact b6 h2 c hc

theorem Advanced.single {p q : ℕ} {D D' : Display d B Φ} {c : Cur d B} (h1 : D'.log = D.log ++ [D'.bar]) (h2 : D'.bar.iter = D.bar.iter + 1 ∧ D'.bar.visible = D.bar.visible ∧ D'.state.t = D.state.t + 1)
    (h3 : D'.state.cur = some c) (h4 : D'.state.particles = D.state.particles.update (Cols.full c.it)) (h5 : Shows p q D'.bar c.it) :
    Advanced p q D D' :=
  ⟨[c.it], [D'.bar], fun its hi => by rw [h4]; exact update_columns _ its hi _, h1, ⟨.cons h5 .nil, by simp [h2.1]⟩, h2,
    fun h => by simp at h, fun _ c' hc' => by rw [h3, Option.some_inj] at hc'; subst hc'; exact h5.calls⟩

theorem andThen_result (t : Trace d B Φ) (f : Sampler d B Φ → Trace d B Φ) : (t.andThen f).2 = t.2.bind fun s => (f s).2 := by
  obtain ⟨l, r⟩ := t
  cases r <;> rfl

theorem save_result (k : Option ℕ) (t0 : ℕ) (s : Sampler d B Φ) : (Trace.save k t0 s).2 = (saveNow k t0 s).map fun _ => s := by
  unfold Trace.save
  cases saveNow k t0 s <;> rfl

variable {e : SamplerEnv d B Φ} {rnd : Rnd d Φ} {fuel : ℕ}

theorem warmupLoopShown_ok {k : Option ℕ} {t0 : ℕ} (n : ℕ) : ∀ (i : ℕ) (D : Display d B Φ) {D' : Display d B Φ},
    warmupLoopShown e rnd k t0 n i D = .ok D' → Advanced 0 0 D D' ∧ (0 < n → D'.log ≠ D.log) := by
  induction n with
  | zero =>
    intro i D D' h
    simp only [warmupLoopShown, Except.ok.injEq] at h
    subst h
    exact ⟨Advanced.refl _ _ _, fun h => absurd h (by omega)⟩
  | succ n ih =>
    intro i D D' h
    unfold warmupLoopShown at h
    obtain ⟨_, -, h⟩ := bind_ok h
    obtain ⟨D1, h1, h⟩ := bind_ok h
    obtain ⟨g, -⟩ := ih _ _ h
    cases hw : warmupStep e rnd D.state i with
    | error x => rw [(warmupStepShown_eq e rnd D i).1 x hw] at h1; cases h1
    | ok s' =>
      obtain ⟨D2, k1, k2, k3, k4, c, k5, k6, k7⟩ := (warmupStepShown_eq e rnd D i).2 s' hw
      rw [k1, Except.ok.injEq] at h1
      subst h1
      refine ⟨(Advanced.single k3 k4 k5 k6 k7).trans g, fun _ hl => ?_⟩
      obtain ⟨new, l, -, g2, -⟩ := g
      have := congrArg List.length (g2.symm.trans hl)
      rw [k3] at this
      simp at this

theorem warmupLoopShown_state {k : Option ℕ} {t0 : ℕ} (n : ℕ) : ∀ (i : ℕ) (D : Display d B Φ),
    (warmupLoopShown e rnd k t0 n i D).map Display.state = (warmupLoop e rnd k t0 n i D.state).2 := by
  induction n with
  | zero => intro i D; rfl
  | succ n ih =>
    intro i D
    unfold warmupLoopShown warmupLoop
    rw [andThen_result, save_result]
    cases saveNow k t0 D.state with
    | error x => rfl
    | ok l =>
      simp only [bind, Except.bind, Except.map, andThen_result, Trace.lift]
      cases hw : warmupStep e rnd D.state i with
      | error x => rw [(warmupStepShown_eq e rnd D i).1 x hw]
      | ok s' =>
        obtain ⟨D2, k1, k2, -⟩ := (warmupStepShown_eq e rnd D i).2 s' hw
        rw [k1]
        dsimp only
        rw [← k2]
        exact ih _ _

theorem smcLoopShown_ok {k : Option ℕ} {t0 p q : ℕ} (n : ℕ) : ∀ (D : Display d B Φ) {D' : Display d B Φ},
    (∀ c, D.state.cur = some c → D.bar.calls + p = c.it.calls + q) → smcLoopShown e rnd fuel k t0 n D = .ok D' → Advanced p q D D' := by
  induction n with
  | zero =>
    intro D D' hD h
    unfold smcLoopShown at h
    split at h
    · cases h
    · simp only [Except.ok.injEq] at h
      subst h
      exact Advanced.refl _ _ _
    · cases h
  | succ n ih =>
    intro D D' hD h
    unfold smcLoopShown at h
    split at h
    · cases h
    · simp only [Except.ok.injEq] at h
      subst h
      exact Advanced.refl _ _ _
    · dsimp only at h
      obtain ⟨_, -, h⟩ := bind_ok h
      obtain ⟨D1, h1, h⟩ := bind_ok h
      obtain ⟨-, k3, k4, c, k5, k6, k7⟩ := smcStepShown_ok hD h1
      exact (Advanced.single k3 k4 k5 k6 k7).trans (ih D1 (fun c' hc' => by rw [k5, Option.some_inj] at hc'; subst hc'; exact k7.calls) h)

variable {ll lp : Pt d → F} {bb : Pt d → List B} {hb : Bool}

theorem smcLoopShown_state (hu : UserFns e ll lp bb hb) (hc : Configured e) (hp : ProperLike ll) {k : Option ℕ} {t0 : ℕ} (n : ℕ) :
    ∀ (D : Display d B Φ) (its : List (Iter d (List B))), Inv e ll lp bb hb D.state its → D.state.warmup = false →
      Draws D.state.scaler.low D.state.scaler.high rnd →
      (smcLoopShown e rnd fuel k t0 n D).map Display.state = (smcLoop e rnd fuel k t0 n D.state).2 := by
  induction n with
  | zero =>
    intro D its hi hw hd
    unfold smcLoopShown smcLoop
    cases notTermination e D.state with
    | error x => rfl
    | ok v => cases v <;> rfl
  | succ n ih =>
    intro D its hi hw hd
    unfold smcLoopShown smcLoop
    cases hn : notTermination e D.state with
    | error x => rfl
    | ok v =>
      cases v with
      | false => rfl
      | true =>
        dsimp only
        rw [andThen_result, save_result]
        cases saveNow k t0 D.state with
        | error x => rfl
        | ok l =>
          simp only [bind, Except.bind, Except.map, andThen_result, Trace.lift]
          have hne : its ≠ [] := by
            unfold notTermination at hn
            obtain ⟨_, -, hn⟩ := bind_ok hn
            obtain ⟨c, hc', -⟩ := bind_ok hn
            have := hi.cur
            rw [orErr_ok hc'] at this
            rintro rfl
            simp at this
          obtain ⟨H, b, z, s1, s2, s3, s4, s5, ⟨c, s6, s7, s8⟩, -⟩ := hi.stages hc hp hne
          have hlast : D.state.particles.past.beta.getLast? = some (fin b) := by
            rw [hi.past]
            change (its.map (·.beta)).getLast? = _
            rw [List.getLast?_map, s7]
            exact congrArg some s8
          have hst := smcStepShown_state (e := e) (rnd := rnd) (fuel := fuel) s2 s1 b s3 hlast
          cases hs : smcStepShown e rnd fuel D with
          | error x =>
            rw [hs] at hst
            rw [← hst]
            rfl
          | ok D' =>
            rw [hs] at hst
            have hst' : smcStep e rnd fuel D.state = .ok D'.state := hst.symm
            rw [hst']
            dsimp only
            obtain ⟨it, hi', hsc⟩ := hi.smc hu hc hd hw hst'
            exact ih D' _ hi' ((smcStep_keep hst').1.trans hw) (by rw [hsc]; exact hd)

theorem runWarmupShown_ok {a : RunArgs} {t0 : ℕ} {D D' : Display d B Φ} (h : runWarmupShown e rnd a t0 D = .ok D') :
    (D.state.warmup = false ∧ D' = D) ∨
      (D.state.warmup = true ∧ Advanced 0 0 D D' ∧ (e.nActive ≤ e.nPrior → D'.log ≠ D.log)) := by
  unfold runWarmupShown at h
  cases hw : D.state.warmup with
  | false =>
    rw [hw] at h
    simp only [Bool.false_eq_true, if_false, Except.ok.injEq] at h
    exact .inl ⟨rfl, h.symm⟩
  | true =>
    rw [hw] at h
    simp only [if_true] at h
    split_ifs at h with h0
    obtain ⟨D1, h1, h⟩ := bind_ok h
    simp only [pure, Except.pure, Except.ok.injEq] at h
    subst h
    obtain ⟨g, hl⟩ := warmupLoopShown_ok _ _ _ h1
    exact .inr ⟨rfl, g, fun hle => hl (Nat.div_pos hle (Nat.pos_of_ne_zero h0))⟩

theorem runWarmupShown_state (a : RunArgs) (t0 : ℕ) (D : Display d B Φ) :
    (runWarmupShown e rnd a t0 D).map Display.state = (runWarmup e rnd a t0 D.state).2 := by
  unfold runWarmupShown runWarmup
  split_ifs with h1 h2
  · rfl
  · rw [andThen_result, ← warmupLoopShown_state]
    cases warmupLoopShown e rnd a.saveEvery t0 (e.nPrior / e.nActive) 0 D <;> rfl
  · rfl

theorem barResumed_ok {s : Sampler d B Φ} {its : List (Iter d (List B))} (hi : s.particles.past = columns its) {it : Iter d (List B)}
    (hl : its.getLast? = some it) (v : Bool) : ∃ b, barResumed v s = .ok b ∧ b.calls = it.calls ∧ b.iter = s.t ∧ b.visible = v := by
  have h : ∀ {α : Type} (f : Iter d (List B) → α), getAt (its.map f) (-1) = .ok (f it) := fun f =>
    getAt_neg_one (by rw [List.getLast?_map, hl]; rfl)
  unfold barResumed
  rw [hi]
  simp only [columns, h, bind, Except.bind, pure, Except.pure]
  exact ⟨_, rfl, rfl, rfl, rfl⟩

/-- **C143, the bar does not matter.** A run of any session ends in the same state, or raises the same exception, as the run in
which no bar is kept: the numbers computed for the bar never fail and never enter the run, whatever `progress` is. -/
theorem C143_no_effect (hu : UserFns e ll lp bb hb) (hc : Configured e) (hp : ProperLike ll) {s : Sampler d B Φ} (hs : Session e hb s)
    (hd : Draws s.scaler.low s.scaler.high rnd) (fuel n : ℕ) (a : RunArgs) (progress : Bool) (resumed : Option Bool)
    (hne : resumed.isSome = true → s.particles.past.x ≠ []) :
    (runShown e rnd fuel n a progress resumed s).map Display.state = (run e rnd fuel n a s).2 := by
  obtain ⟨its, hi⟩ := hs.inv hu hc (ll := ll) (lp := lp) (bb := bb)
  obtain ⟨b, hb'⟩ : ∃ b, barStart progress resumed s = .ok b := by
    cases resumed with
    | none => exact ⟨_, rfl⟩
    | some v =>
      have hne' : its ≠ [] := by
        rintro rfl
        exact hne rfl (by rw [hi.past]; rfl)
      obtain ⟨b, h1, -⟩ := barResumed_ok hi.past (List.getLast?_eq_getLast_of_ne_nil hne') v
      exact ⟨b, h1⟩
  unfold runShown run
  simp only [hb', bind, Except.bind, andThen_result, Trace.lift]
  cases h1 : runInit e rnd a s with
  | error x => rfl
  | ok s1 =>
    obtain ⟨i1, i2, i3⟩ := hi.init hc hd h1
    have hd1 : Draws s1.scaler.low s1.scaler.high rnd := by rw [i2, i3]; exact hd
    dsimp only
    have hw := runWarmupShown_state (e := e) (rnd := rnd) a s.t ⟨s1, b, []⟩
    cases h2 : runWarmupShown e rnd a s.t ⟨s1, b, []⟩ with
    | error x => rw [h2] at hw; rw [← hw]; rfl
    | ok D =>
      rw [h2] at hw
      have hw' : (runWarmup e rnd a s.t s1).2 = .ok D.state := hw.symm
      rw [hw']
      dsimp only
      obtain ⟨w1, w2⟩ := Along.runWarmup (e := e) (rnd := rnd) a s.t s1
      obtain ⟨more, j1, j2, j3⟩ := i1.moves hu hc hd1 (w1.to_end _ hw').1
      have hl := smcLoopShown_state hu hc hp (fuel := fuel) (k := a.saveEvery) (t0 := s.t) n D _ j1 (w2 _ hw') (by rw [j2, j3]; exact hd1)
      cases h3 : smcLoopShown e rnd fuel a.saveEvery s.t n D with
      | error x => rw [h3] at hl; rw [← hl]; rfl
      | ok D' =>
        rw [h3] at hl
        rw [← hl]
        simp only [Except.map]
        unfold finalEvidenceShown
        cases finalEvidence e rnd D'.state <;> rfl

/-- **C143, what the bar shows.** At the end of every iteration of a run, warm-up included, the bar showed exactly what was recorded
for that iteration: temperature, effective size (rounded down), log-evidence, mean log-posterior, acceptance, steps, efficiency.
Its counter counts the iterations: of this run, or of all runs if the run was resumed from a file.  The number of likelihood calls
is the recorded one on a new sampler and in a resumed run; in a later run of the same sampler it also includes the calls made for
the evidence by the run before, which the recorded numbers leave out. -/
theorem C143_shown_partial (hu : UserFns e ll lp bb hb) (hc : Configured e) {s : Sampler d B Φ} (hs : Session e hb s) {n : ℕ}
    {a : RunArgs} {progress : Bool} {resumed : Option Bool} {D : Display d B Φ}
    (h : runShown e rnd fuel n a progress resumed s = .ok D) :
    ∃ its new, s.particles.past = columns its ∧ D.state.particles.past = columns (its ++ new) ∧ D.state.t = s.t + new.length ∧
      (resumed.isSome = true → Displayed 0 0 s.t D.log new) ∧
      (resumed = none → s.warmup = true → Displayed 0 0 0 D.log new) ∧
      (resumed = none → s.warmup = false → ∀ it, its.getLast? = some it → Displayed it.calls s.calls 0 D.log new) := by
  obtain ⟨its, hi⟩ := hs.inv hu hc (ll := ll) (lp := lp) (bb := bb)
  unfold runShown at h
  obtain ⟨b, h0, h⟩ := bind_ok h
  obtain ⟨s1, h1, h⟩ := bind_ok h
  obtain ⟨D1, h2, h⟩ := bind_ok h
  obtain ⟨D2, h3, h⟩ := bind_ok h
  unfold finalEvidenceShown at h
  obtain ⟨s', h4, h⟩ := bind_ok h
  simp only [pure, Except.pure, Except.ok.injEq] at h
  subst h
  have hpast : s'.particles = D2.state.particles := by
    rcases finalEvidence_ok h4 with ⟨-, -, hm⟩ | ⟨-, lw, z, -, rfl⟩
    · obtain ⟨inv, ll', bl, hbl, k1, k2, rfl⟩ := computeEvidence_ok hm
      rfl
    · rfl
  have e1 : s1.particles = s.particles ∧ s1.cur = s.cur ∧ s1.warmup = s.warmup := by
    rcases runInit_ok h1 with ⟨-, rfl⟩ | ⟨-, sc, -, rfl⟩ <;> exact ⟨rfl, rfl, rfl⟩
  have ht1 : s1.t = s.t := by
    rcases runInit_ok h1 with ⟨-, rfl⟩ | ⟨-, sc, -, rfl⟩ <;> rfl
  have fin : ∀ p q, Advanced p q ⟨s1, b, []⟩ D2 → ∃ new, (D2.state.particles.past = columns (its ++ new) ∧ s'.t = s.t + new.length) ∧ Displayed p q b.iter D2.log new := by
    rintro p q ⟨new, l, g1, g2, g3, ⟨-, -, g4⟩, -⟩
    refine ⟨new, ⟨g1 its (by rw [e1.1]; exact hi.past), ?_⟩, ?_⟩
    · rw [(finalEvidence_keep h4).1, g4]
      show s1.t + _ = _
      rw [ht1]
    rw [g2]
    simpa using g3
  rw [hpast]
  rcases runWarmupShown_ok h2 with ⟨hw, rfl⟩ | ⟨hw, g, gl⟩
  · have hw' : s.warmup = false := e1.2.2 ▸ hw
    cases resumed with
    | none =>
      have hb0 : b = barNew progress s := by simpa [barStart] using h0.symm
      cases hl : its.getLast? with
      | none =>
        have hcur : s1.cur = none := by
          have := hi.cur
          rw [hl] at this
          rw [e1.2.1]
          simpa using this
        obtain ⟨new, k1, k2⟩ := fin 0 0 (smcLoopShown_ok n _ (fun c hc' => by rw [hcur] at hc'; cases hc') h3)
        exact ⟨its, new, hi.past, k1.1, k1.2, fun h => by (cases h), fun _ h => by (rw [hw'] at h; cases h), fun _ _ it hit => by cases hl.symm.trans hit⟩
      | some it =>
        obtain ⟨new, k1, k2⟩ := fin it.calls s.calls (smcLoopShown_ok n _ (fun c hc' => by
          have := hi.cur
          rw [hl, ← e1.2.1] at this
          have hc2 : s1.cur = some c := hc'
          rw [hc2] at this
          simp only [Option.map_some, Option.some_inj] at this
          rw [hb0, this]
          exact Nat.add_comm _ _) h3)
        rw [hb0] at k2
        refine ⟨its, new, hi.past, k1.1, k1.2, fun h => by (cases h), fun _ h => by (rw [hw'] at h; cases h), fun _ _ it' hit => ?_⟩
        cases hl.symm.trans hit
        exact k2
    | some v =>
      cases hl : its.getLast? with
      | none =>
        exfalso
        have : its = [] := List.getLast?_eq_none_iff.1 hl
        rw [this] at hi
        have hp := hi.past
        simp only [barStart] at h0
        unfold barResumed at h0
        rw [hp] at h0
        simp [columns, getAt, pyGet?, bind, Except.bind] at h0
      | some it =>
        obtain ⟨b', r1, r2, r3, -⟩ := barResumed_ok hi.past hl v
        have hb0 : b' = b := by
          have h0' : barResumed v s = .ok b := h0
          rw [r1] at h0'
          simpa using h0'
        subst hb0
        obtain ⟨new, k1, k2⟩ := fin 0 0 (smcLoopShown_ok n _ (fun c hc' => by
          have := hi.cur
          rw [hl, ← e1.2.1] at this
          have hc2 : s1.cur = some c := hc'
          rw [hc2] at this
          simp only [Option.map_some, Option.some_inj] at this
          show b'.calls + 0 = _
          rw [r2, this]) h3)
        rw [r3] at k2
        exact ⟨its, new, hi.past, k1.1, k1.2, fun _ => k2, fun h => by (cases h), fun h => by cases h⟩
  · have hw' : s.warmup = true := e1.2.2 ▸ hw
    have g' := g
    obtain ⟨new1, l1, -, g2, g3, -, -, g6⟩ := g'
    have hne1 : new1 ≠ [] := by
      rintro rfl
      have := g3.shows
      rw [List.forall₂_nil_right_iff] at this
      subst this
      exact gl hc.2.1 (by simpa using g2)
    obtain ⟨new, k1, k2⟩ := fin 0 0 (g.trans (smcLoopShown_ok n _ (g6 hne1) h3))
    refine ⟨its, new, hi.past, k1.1, k1.2, fun h => ?_, fun h _ => ?_, fun _ h => by rw [hw'] at h; cases h⟩
    · cases resumed with
      | none => cases h
      | some v =>
        have h0' : barResumed v s = .ok b := h0
        have : b.iter = s.t := by
          unfold barResumed at h0'
          obtain ⟨_, -, h0'⟩ := bind_ok h0'
          obtain ⟨_, -, h0'⟩ := bind_ok h0'
          obtain ⟨_, -, h0'⟩ := bind_ok h0'
          obtain ⟨_, -, h0'⟩ := bind_ok h0'
          obtain ⟨_, -, h0'⟩ := bind_ok h0'
          obtain ⟨_, -, h0'⟩ := bind_ok h0'
          obtain ⟨_, -, h0'⟩ := bind_ok h0'
          obtain ⟨_, -, h0'⟩ := bind_ok h0'
          obtain ⟨_, -, h0'⟩ := bind_ok h0'
          simp only [pure, Except.pure, Except.ok.injEq] at h0'
          rw [← h0']
        rw [this] at k2
        exact k2
    · subst h
      have hb0 : b = barNew progress s := by simpa [barStart] using h0.symm
      rw [hb0] at k2
      exact k2

/-- **C143, the argument `progress`.** False when resuming: the bar is shown or hidden as in the run that wrote the state file, and
the argument is not looked at. -/
theorem C143_resumed_ignores {s : Sampler d B Φ} {n : ℕ} {a : RunArgs} {progress saved : Bool} {D : Display d B Φ}
    (h : runShown e rnd fuel n a progress (some saved) s = .ok D) : D.bar.visible = saved := by
  unfold runShown at h
  obtain ⟨b, h0, h⟩ := bind_ok h
  obtain ⟨s1, h1, h⟩ := bind_ok h
  obtain ⟨D1, h2, h⟩ := bind_ok h
  obtain ⟨D2, h3, h⟩ := bind_ok h
  have hb0 : b.visible = saved := by
    have h0' : barResumed saved s = .ok b := h0
    unfold barResumed at h0'
    obtain ⟨_, -, h0'⟩ := bind_ok h0'
    obtain ⟨_, -, h0'⟩ := bind_ok h0'
    obtain ⟨_, -, h0'⟩ := bind_ok h0'
    obtain ⟨_, -, h0'⟩ := bind_ok h0'
    obtain ⟨_, -, h0'⟩ := bind_ok h0'
    obtain ⟨_, -, h0'⟩ := bind_ok h0'
    obtain ⟨_, -, h0'⟩ := bind_ok h0'
    obtain ⟨_, -, h0'⟩ := bind_ok h0'
    obtain ⟨_, -, h0'⟩ := bind_ok h0'
    simp only [pure, Except.pure, Except.ok.injEq] at h0'
    rw [← h0']
  have hv1 : D1.bar.visible = b.visible := by
    rcases runWarmupShown_ok h2 with ⟨-, rfl⟩ | ⟨-, ⟨_, _, -, -, -, ⟨-, g, -⟩, -⟩, -⟩
    · rfl
    · exact g
  have hv2 : D2.bar.visible = D1.bar.visible := by
    cases hc : D1.state.cur with
    | none =>
      obtain ⟨_, _, -, -, -, ⟨-, g, -⟩, -⟩ := smcLoopShown_ok (p := 0) (q := 0) n D1 (fun c hc' => by rw [hc] at hc'; cases hc') h3
      exact g
    | some c =>
      obtain ⟨_, _, -, -, -, ⟨-, g, -⟩, -⟩ := smcLoopShown_ok (p := c.it.calls) (q := D1.bar.calls) n D1 (fun c' hc' => by
        rw [hc, Option.some_inj] at hc'
        rw [hc']
        exact Nat.add_comm _ _) h3
      exact g
  unfold finalEvidenceShown at h
  obtain ⟨s', h4, h⟩ := bind_ok h
  simp only [pure, Except.pure, Except.ok.injEq] at h
  subst h
  rw [← hb0, ← hv1, ← hv2]
  show Bar.visible (if _ then _ else _) = _
  split_ifs <;> rfl

/-- **C143, a state saved before the first iteration** (`save_state` on a new sampler) cannot be resumed: the bar asks for the last
iteration and the run raises IndexError before it starts. -/
theorem C143_resume_empty {s : Sampler d B Φ} (hs : Fresh e hb s) (n : ℕ) (a : RunArgs) (progress saved : Bool) :
    runShown e rnd fuel n a progress (some saved) s = .error .indexError := by
  unfold runShown
  have : barStart progress (some saved) s = .error .indexError := by
    simp only [barStart, barResumed, hs.particles]
    rfl
  rw [this]
  rfl

namespace Demo

/-- On a new sampler: every one of the three iterations was shown as it is recorded, and without the bar the run ends in the same
state. -/
example (v : Bool) : ∃ D, runShown (env true) Demo.rnd 0 1 (args 3) v none start = .ok D ∧ D.log.length = 3 ∧
    ∃ its, D.state.particles.past = columns its ∧ Displayed 0 0 0 D.log its := by
  obtain ⟨s1, its, hr, hi, -, hl, -⟩ := first_run true 3
  have h := C143_no_effect (user true) (configured true) proper (.fresh (fresh true)) draws 0 1 (args 3) v none (fun h => by cases h)
  rw [hr] at h
  obtain ⟨D, hD, rfl⟩ := map_ok h
  obtain ⟨its0, new, h1, h2, -, -, h3, -⟩ := C143_shown_partial (user true) (configured true) (.fresh (fresh true)) hD
  have e0 : its0 = [] := by
    have := congrArg (fun c => c.x.length) h1
    simpa [columns, start, Particles.init] using this.symm
  subst e0
  have hd := h3 rfl rfl
  refine ⟨D, hD, ?_, new, by simpa using h2, hd⟩
  have hlen := congrArg (fun c => c.x.length) (hi.past.symm.trans h2)
  have := hd.shows.length_eq
  simp [columns] at hlen
  omega

/-- **C143 is false as stated**, as regards the number of calls: in a second run of the same sampler (three importance-sampling
draws in the first) the bar does not show the recorded number. -/
theorem C143_not_always : ∃ (s : Sampler 2 Unit Unit) (D : Display 2 Unit Unit), Session (env true) true s ∧
    runShown (env true) Demo.rnd 0 1 ⟨8, 3, some 1⟩ true none s = .ok D ∧
    ∃ its new, s.particles.past = columns its ∧ D.state.particles.past = columns (its ++ new) ∧ new ≠ [] ∧
      ¬ Displayed 0 0 0 D.log new := by
  obtain ⟨s1, its, hr1, hi, -, hl, hw, -⟩ := first_run true 3
  obtain ⟨hd, s2, r2, ht⟩ := second_run true 3 s1 hr1
  have hs1 : Session (env true) true s1 := .ran Demo.rnd 0 1 (args 3) (.fresh (fresh true)) draws hr1
  have h := C143_no_effect (user true) (configured true) proper hs1 hd 0 1 ⟨8, 3, some 1⟩ true none (fun h => by cases h)
  rw [r2] at h
  obtain ⟨D, hD, rfl⟩ := map_ok h
  obtain ⟨its', new, h1, h2, ht', -, -, h3⟩ := C143_shown_partial (user true) (configured true) hs1 hD
  have hm : Missing 0 start := by unfold Missing; rfl
  obtain ⟨m, -, hm1, -, -, s3, hm3, hfe, hne⟩ := run_counts (user true) (configured true) (.fresh (fresh true)) draws hr1 hm fun _ => ⟨rfl, rfl⟩
  have hpos : 0 < m := by
    rcases finalEvidence_ok hfe with ⟨-, -, h⟩ | ⟨h, -⟩
    · obtain ⟨inv, ll', bl, hbl, q1, q2, rfl⟩ := computeEvidence_ok h
      unfold Missing at hm1 hm3
      simp only [List.length_append] at hm1
      have hl : inv.length = 3 := by
        unfold Scaler.inverse at q1
        have := (mapM_eq_ok q1).1
        rw [hne] at this
        simpa [Demo.rnd, args] using this
      have hk : (keepFinite ((env true).logPrior (inv.map (·.1))) (inv.map (·.1))).length = 3 := by
        unfold keepFinite
        rw [maskSelect_length _ _ (by simp [env])]
        simp [env, hl, F.isfinite, List.count_replicate]
      omega
    · exact absurd ⟨by rw [hne]; simp [args], rfl⟩ h
  have hc1 := C27_first_run_partial (user true) (configured true) (fresh true) draws 0 1 (args 3) hr1
  unfold Missing at hm1
  have hlen := congrArg (fun c => c.x.length) (hi.past.symm.trans h1)
  simp only [columns, List.length_map] at hlen
  obtain ⟨it, hit⟩ : ∃ it, its'.getLast? = some it := ⟨_, List.getLast?_eq_getLast_of_ne_nil (by rintro rfl; rw [hl] at hlen; simp at hlen)⟩
  have hdis := h3 rfl hw it hit
  have hne' : new ≠ [] := by
    rintro rfl
    simp at ht'
    omega
  refine ⟨s1, D, hs1, hD, its', new, h1, h2, hne', fun hz => ?_⟩
  cases hnew : new with
  | nil => exact hne' hnew
  | cons x xs =>
    rw [hnew] at hdis hz
    have a1 := hdis.shows
    have a2 := hz.shows
    cases hlog : D.log with
    | nil => rw [hlog] at a1; cases a1
    | cons y ys =>
      rw [hlog] at a1 a2
      have b1 := (List.forall₂_cons.1 a1).1.calls
      have b2 := (List.forall₂_cons.1 a2).1.calls
      have hlast : s1.particles.past.calls.getLast? = some it.calls := by
        rw [h1]
        show (its'.map fun i => i.calls).getLast? = _
        rw [List.getLast?_map, hit]
        rfl
      rw [hlast] at hm1
      simp only [Option.getD_some] at hm1
      omega

end Demo

end Poco
