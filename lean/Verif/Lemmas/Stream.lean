import Verif.Spec.Stream
import Verif.Lemmas.Flaky
import Verif.Lemmas.Inv

/-! A run that draws from generators is the run with an oracle that holds the values drawn. -/

namespace Poco
open F Spec

variable {d : ℕ} {B Φ W : Type}

/-- Every value of the oracle `r` is a value of the oracle `r0` or one the generator returned in some state. -/
structure Spec.Drawn (gen : Gen d Φ W) (r0 r : Rnd d Φ) : Prop where
  prior : ∀ n, r.prior n = r0.prior n ∨ ∃ w, r.prior n = (gen.prior n w).1
  warm : ∀ t k, r.warm t k = r0.warm t k ∨ ∃ n size w, r.warm t k ∈ (gen.ints n size w).1
  mult : ∀ t k, r.mult t k = r0.mult t k ∨ ∃ n w, r.mult t k ∈ (gen.uniform n w).1
  syst : ∀ t, r.syst t = r0.syst t ∨ ∃ n w, r.syst t ∈ (gen.uniform n w).1
  gamma : ∀ t i k, (r.mcmc t i k).gamma = (r0.mcmc t i k).gamma ∨ ∃ a b w, (r.mcmc t i k).gamma = (gen.gamma a b w).1
  z : ∀ t i k, (r.mcmc t i k).z = (r0.mcmc t i k).z ∨ ∃ w, (r.mcmc t i k).z = (gen.randn w).1
  rand : ∀ t i k, (r.mcmc t i k).rand = (r0.mcmc t i k).rand ∨ ∃ n w u, u ∈ (gen.uniform n w).1 ∧ (r.mcmc t i k).rand = fin u
  flowFit : ∀ t φ us ws, r.flowFit t φ us ws = r0.flowFit t φ us ws ∨ ∃ w, r.flowFit t φ us ws = (gen.flowFit φ us ws w).map Prod.fst
  geoFit : ∀ t us ws, r.geoFit t us ws = r0.geoFit t us ws ∨ ∃ w, r.geoFit t us ws = (gen.geoFit us ws w).map Prod.fst
  flowSample : ∀ t φ n, r.flowSample t φ n = r0.flowSample t φ n ∨ ∃ w, r.flowSample t φ n = (gen.flowSample φ n w).1
  boot : ∀ t i k, r.boot t i k = r0.boot t i k ∨ ∃ n size w, r.boot t i k ∈ (gen.ints n size w).1

theorem Spec.Drawn.refl (gen : Gen d Φ W) (r : Rnd d Φ) : Drawn gen r r :=
  ⟨fun _ => .inl rfl, fun _ _ => .inl rfl, fun _ _ => .inl rfl, fun _ => .inl rfl, fun _ _ _ => .inl rfl, fun _ _ _ => .inl rfl,
    fun _ _ _ => .inl rfl, fun _ _ _ _ => .inl rfl, fun _ _ _ => .inl rfl, fun _ _ _ => .inl rfl, fun _ _ _ => .inl rfl⟩

theorem or_trans {α : Type} {a b c : α} {Q : α → Prop} (h1 : b = a ∨ Q b) (h2 : c = b ∨ Q c) : c = a ∨ Q c := by
  rcases h2 with h2 | h2
  · subst h2; exact h1
  · exact .inr h2

theorem Spec.Drawn.trans {gen : Gen d Φ W} {r0 r1 r2 : Rnd d Φ} (h : Drawn gen r0 r1) (k : Drawn gen r1 r2) : Drawn gen r0 r2 where
  prior n := or_trans (Q := fun v => ∃ w, v = (gen.prior n w).1) (h.prior n) (k.prior n)
  warm t i := or_trans (Q := fun v => ∃ n size w, v ∈ (gen.ints n size w).1) (h.warm t i) (k.warm t i)
  mult t i := or_trans (Q := fun v => ∃ n w, v ∈ (gen.uniform n w).1) (h.mult t i) (k.mult t i)
  syst t := or_trans (Q := fun v => ∃ n w, v ∈ (gen.uniform n w).1) (h.syst t) (k.syst t)
  gamma t i j := or_trans (Q := fun v => ∃ a b w, v = (gen.gamma a b w).1) (h.gamma t i j) (k.gamma t i j)
  z t i j := or_trans (Q := fun v => ∃ w, v = (gen.randn w).1) (h.z t i j) (k.z t i j)
  rand t i j := or_trans (Q := fun v => ∃ n w u, u ∈ (gen.uniform n w).1 ∧ v = fin u) (h.rand t i j) (k.rand t i j)
  flowFit t φ us ws := or_trans (Q := fun v => ∃ w, v = (gen.flowFit φ us ws w).map Prod.fst) (h.flowFit t φ us ws) (k.flowFit t φ us ws)
  geoFit t us ws := or_trans (Q := fun v => ∃ w, v = (gen.geoFit us ws w).map Prod.fst) (h.geoFit t us ws) (k.geoFit t us ws)
  flowSample t φ n := or_trans (Q := fun v => ∃ w, v = (gen.flowSample φ n w).1) (h.flowSample t φ n) (k.flowSample t φ n)
  boot t i j := or_trans (Q := fun v => ∃ n size w, v ∈ (gen.ints n size w).1) (h.boot t i j) (k.boot t i j)

theorem bind_proj {α β γ δ : Type} {a : Except PyErr α} {ga : Except PyErr β} {p : β → α} {f : α → Except PyErr γ} {g : β → Except PyErr δ} {q : δ → γ}
    (h : a = ga.map p) (k : ∀ v, ga = .ok v → f (p v) = (g v).map q) : (a >>= f) = (ga >>= g).map q := by
  subst h
  cases ga with
  | error x => rfl
  | ok v => exact k v rfl

theorem bind_same {α γ δ : Type} {a : Except PyErr α} {f : α → Except PyErr γ} {g : α → Except PyErr δ} {q : δ → γ}
    (k : ∀ v, a = .ok v → f v = (g v).map q) : (a >>= f) = (a >>= g).map q := by
  cases a with
  | error x => rfl
  | ok v => exact k v rfl

/-! ### MCMC -/

/-- One step reads only the draws of its walkers, and the gamma variates only for t-pCN. -/
theorem mcmcStep_congr {e : McmcEnv d B} {fuel i : ℕ} {st : McmcState d B} {r r' : ℕ → Draw d}
    (hz : ∀ k < st.walkers.length, (r k).z = (r' k).z) (hr : ∀ k < st.walkers.length, (r k).rand = (r' k).rand)
    (hg : e.kernel.isPcn = true → ∀ k < st.walkers.length, (r k).gamma = (r' k).gamma) : mcmcStep e fuel r i st = mcmcStep e fuel r' i st := by
  have h1 : (st.walkers.mapIdx fun k w => propose e st.sigma st.mu w (r k)) = st.walkers.mapIdx fun k w => propose e st.sigma st.mu w (r' k) := by
    apply List.ext_getElem
    · simp
    · intro k h1 h2
      have hk : k < st.walkers.length := by simpa using h1
      simp only [List.getElem_mapIdx]
      unfold propose
      rw [hz k hk]
      by_cases hp : e.kernel.isPcn = true
      · rw [hg hp k hk]
      · dsimp only
        rw [if_neg hp, if_neg hp]
  have h2 : ∀ props : List (Walker d B), ((st.walkers.zip props).mapIdx fun k q => if (r k).rand < alpha e st.mu q.1 q.2 then q.2 else q.1) =
      (st.walkers.zip props).mapIdx fun k q => if (r' k).rand < alpha e st.mu q.1 q.2 then q.2 else q.1 := by
    intro props
    apply List.ext_getElem
    · simp
    · intro k h1 h2
      have hk : k < st.walkers.length := by
        have : k < (st.walkers.zip props).length := by simpa using h1
        rw [List.length_zip] at this
        omega
      simp only [List.getElem_mapIdx]
      rw [hr k hk]
  unfold mcmcStep
  rw [h1]
  simp only [h2]

theorem gammasG_spec (gen : Gen d Φ W) (e : McmcEnv d B) (mu : Pt d) (qs : List (Walker d B)) : ∀ w,
    (gammasG gen e mu qs w).1.length = qs.length ∧ ∀ g ∈ (gammasG gen e mu qs w).1, ∃ a b w', g = (gen.gamma a b w').1 := by
  induction qs with
  | nil => intro w; simp [gammasG]
  | cons q qs ih =>
    intro w
    obtain ⟨h1, h2⟩ := ih (gen.gamma (gammaParams e mu q.theta).1 (gammaParams e mu q.theta).2 w).2
    refine ⟨by simp [gammasG, h1], fun g hg => ?_⟩
    simp only [gammasG, List.mem_cons] at hg
    rcases hg with rfl | hg
    · exact ⟨_, _, _, rfl⟩
    · exact h2 g hg

theorem normalsG_spec (gen : Gen d Φ W) (n : ℕ) : ∀ w, (normalsG gen n w).1.length = n ∧ ∀ z ∈ (normalsG gen n w).1, ∃ w', z = (gen.randn w').1 := by
  induction n with
  | zero => intro w; simp [normalsG]
  | succ n ih =>
    intro w
    obtain ⟨h1, h2⟩ := ih (gen.randn w).2
    refine ⟨by simp [normalsG, h1], fun z hz => ?_⟩
    simp only [normalsG, List.mem_cons] at hz
    rcases hz with rfl | hz
    · exact ⟨_, rfl⟩
    · exact h2 z hz

/-- The draws of a kernel call: old ones or ones the generator returned. -/
structure DrawnM (gen : Gen d Φ W) (m0 m : ℕ → ℕ → Draw d) : Prop where
  gamma : ∀ i k, (m i k).gamma = (m0 i k).gamma ∨ ∃ a b w, (m i k).gamma = (gen.gamma a b w).1
  z : ∀ i k, (m i k).z = (m0 i k).z ∨ ∃ w, (m i k).z = (gen.randn w).1
  rand : ∀ i k, (m i k).rand = (m0 i k).rand ∨ ∃ n w u, u ∈ (gen.uniform n w).1 ∧ (m i k).rand = fin u

theorem DrawnM.refl (gen : Gen d Φ W) (m : ℕ → ℕ → Draw d) : DrawnM gen m m := ⟨fun _ _ => .inl rfl, fun _ _ => .inl rfl, fun _ _ => .inl rfl⟩

theorem DrawnM.trans {gen : Gen d Φ W} {r0 r1 r2 : ℕ → ℕ → Draw d} (h : DrawnM gen r0 r1) (k : DrawnM gen r1 r2) : DrawnM gen r0 r2 where
  gamma i j := or_trans (Q := fun v => ∃ a b w, v = (gen.gamma a b w).1) (h.gamma i j) (k.gamma i j)
  z i j := or_trans (Q := fun v => ∃ w, v = (gen.randn w).1) (h.z i j) (k.z i j)
  rand i j := or_trans (Q := fun v => ∃ n w u, u ∈ (gen.uniform n w).1 ∧ v = fin u) (h.rand i j) (k.rand i j)

theorem getD_lt {α : Type} {l : List α} {k : ℕ} (h : k < l.length) (x : α) : l.getD k x = l[k] := by
  rw [List.getD, List.getElem?_eq_getElem h]; rfl

theorem getD_or {α : Type} (l : List α) (k : ℕ) (x : α) : l.getD k x = x ∨ l.getD k x ∈ l := by
  by_cases h : k < l.length
  · right; rw [getD_lt h]; exact List.getElem_mem h
  · left; rw [List.getD, List.getElem?_eq_none (by omega)]; rfl

theorem getD_default {α : Type} {l : List α} {k : ℕ} (h : k < l.length) (x y : α) : l.getD k x = l.getD k y := by
  rw [getD_lt h, getD_lt h]

variable {gen : Gen d Φ W} {low high : Fin d → F}

theorem mcmcStep_stream (hg : Generates gen low high) (e : McmcEnv d B) (fuel i : ℕ) (st : McmcState d B) (w : W) (m0 : ℕ → ℕ → Draw d) :
    ∃ m, DrawnM gen m0 m ∧ (∀ j ≠ i, m j = m0 j) ∧ mcmcStep e fuel (m i) i st = (mcmcStepG gen e fuel i st w).map Prod.fst := by
  let gs := scalesG gen e st w
  let zs := normalsG gen st.walkers.length gs.2
  let us := gen.uniform st.walkers.length zs.2
  let q : ℕ → Draw d := fun k => ⟨gs.1.getD k (m0 i k).gamma, zs.1.getD k (m0 i k).z, if k < us.1.length then fin (us.1.getD k 0) else (m0 i k).rand⟩
  have hgs : ∀ g ∈ gs.1, ∃ a b w', g = (gen.gamma a b w').1 := by
    intro g hgm
    simp only [gs, scalesG] at hgm
    split_ifs at hgm
    · exact (gammasG_spec gen e st.mu st.walkers w).2 g hgm
    · simp at hgm
  have hul := (hg.uniform st.walkers.length zs.2).1
  refine ⟨Function.update m0 i q, ⟨fun j k => ?_, fun j k => ?_, fun j k => ?_⟩, fun j hj => Function.update_of_ne hj _ _, ?_⟩
  · by_cases hj : j = i
    · subst hj
      rw [Function.update_self]
      rcases getD_or gs.1 k (m0 j k).gamma with h | h
      · exact .inl h
      · exact .inr (hgs _ h)
    · rw [Function.update_of_ne hj]; exact .inl rfl
  · by_cases hj : j = i
    · subst hj
      rw [Function.update_self]
      rcases getD_or zs.1 k (m0 j k).z with h | h
      · exact .inl h
      · exact .inr ((normalsG_spec gen _ _).2 _ h)
    · rw [Function.update_of_ne hj]; exact .inl rfl
  · by_cases hj : j = i
    · subst hj
      rw [Function.update_self]
      by_cases hk : k < us.1.length
      · refine .inr ⟨st.walkers.length, zs.2, us.1.getD k 0, ?_, ?_⟩
        · rw [getD_lt hk]; exact List.getElem_mem hk
        · simp only [q]; rw [if_pos hk]
      · left; simp only [q]; rw [if_neg hk]
    · rw [Function.update_of_ne hj]; exact .inl rfl
  · rw [Function.update_self]
    have : mcmcStep e fuel q i st = mcmcStep e fuel (fun k => ⟨gs.1.getD k nan, zs.1.getD k (fun _ => nan), fin (us.1.getD k 0)⟩) i st := by
      refine mcmcStep_congr (fun k hk => ?_) (fun k hk => ?_) (fun hp k hk => ?_)
      · exact getD_default (by rw [(normalsG_spec gen _ _).1]; exact hk) _ _
      · simp only [q]; rw [if_pos (by rw [hul]; exact hk)]
      · refine getD_default ?_ _ _
        simp only [gs, scalesG]
        rw [if_pos hp, (gammasG_spec gen e st.mu st.walkers w).1]
        exact hk
    rw [this]
    unfold mcmcStepG
    cases h : mcmcStep e fuel (fun k => ⟨gs.1.getD k nan, zs.1.getD k (fun _ => nan), fin (us.1.getD k 0)⟩) i st with
    | error x => simp only [gs, zs, us] at h; simp only [h]; rfl
    | ok v => simp only [gs, zs, us] at h; simp only [h]; rfl

theorem mcmcLoop_stream (hg : Generates gen low high) (e : McmcEnv d B) (fuel : ℕ) (n : ℕ) : ∀ (i : ℕ) (st : McmcState d B) (w : W) (m0 : ℕ → ℕ → Draw d), e.nMax - i ≤ n →
    ∃ m, DrawnM gen m0 m ∧ (∀ j ≤ i, m j = m0 j) ∧ mcmcLoop e fuel m i st = (mcmcLoopG gen e fuel i st w).map fun r => (r.1, r.2.1) := by
  induction n with
  | zero =>
    intro i st w m0 hn
    obtain ⟨m, h1, h2, h3⟩ := mcmcStep_stream hg e fuel (i + 1) st w m0
    refine ⟨m, h1, fun j hj => h2 j (by omega), ?_⟩
    rw [mcmcLoop, mcmcLoopG, h3]
    cases hs : mcmcStepG gen e fuel (i + 1) st w with
    | error x => rfl
    | ok v =>
      obtain ⟨st', w'⟩ := v
      simp only [Except.map]
      by_cases hst : st'.stop = true
      · rw [if_pos hst, if_pos hst]
      · rw [if_neg hst, if_neg hst, if_pos (by omega), if_pos (by omega)]
  | succ n ih =>
    intro i st w m0 hn
    obtain ⟨m, h1, h2, h3⟩ := mcmcStep_stream hg e fuel (i + 1) st w m0
    cases hs : mcmcStepG gen e fuel (i + 1) st w with
    | error x =>
      refine ⟨m, h1, fun j hj => h2 j (by omega), ?_⟩
      rw [mcmcLoop, mcmcLoopG, h3, hs]
      rfl
    | ok v =>
      obtain ⟨st', w'⟩ := v
      by_cases hst : st'.stop = true
      · refine ⟨m, h1, fun j hj => h2 j (by omega), ?_⟩
        rw [mcmcLoop, mcmcLoopG, h3, hs]
        simp only [Except.map]
        rw [if_pos hst, if_pos hst]
      by_cases hM : e.nMax ≤ i + 1
      · refine ⟨m, h1, fun j hj => h2 j (by omega), ?_⟩
        rw [mcmcLoop, mcmcLoopG, h3, hs]
        simp only [Except.map]
        rw [if_neg hst, if_neg hst, if_pos hM, if_pos hM]
      obtain ⟨m', k1, k2, k3⟩ := ih (i + 1) st' w' m (by omega)
      refine ⟨m', h1.trans k1, fun j hj => by rw [k2 j (by omega), h2 j (by omega)], ?_⟩
      rw [mcmcLoop, mcmcLoopG, k2 (i + 1) le_rfl, h3, hs]
      simp only [Except.map]
      rw [if_neg hst, if_neg hst, if_neg hM, if_neg hM, k3]
      rfl

theorem mcmc_stream (hg : Generates gen low high) (e : McmcEnv d B) (fuel : ℕ) (ws : List (Walker d B)) (w : W) (m0 : ℕ → ℕ → Draw d) :
    ∃ m, DrawnM gen m0 m ∧ mcmc e fuel m ws = (mcmcG gen e fuel ws w).map Prod.fst := by
  obtain ⟨m, h1, -, h3⟩ := mcmcLoop_stream hg e fuel _ 0 (mcmcInit e ws) w m0 le_rfl
  refine ⟨m, h1, ?_⟩
  unfold mcmc mcmcG
  rw [h3]
  cases mcmcLoopG gen e fuel 0 (mcmcInit e ws) w with
  | error x => rfl
  | ok v => rfl

/-! ### the main loop -/

theorem train_stream (e : SamplerEnv d B Φ) (s : Sampler d B Φ) (c : Cur d B) (w : W) :
    ∃ wg, ∀ rnd : Rnd d Φ, (rnd.flowFit s.t = fun φ us ws => (gen.flowFit φ us ws w).map Prod.fst) → (rnd.geoFit s.t = fun us ws => (gen.geoFit us ws wg).map Prod.fst) →
      train e rnd s c = (trainG gen e s c w).map Prod.fst := by
  cases hw : c.weights with
  | none => exact ⟨w, fun rnd _ _ => by unfold train trainG; rw [hw]; rfl⟩
  | some wts =>
    cases hn : trainNow e s c.it.beta with
    | error x => exact ⟨w, fun rnd _ _ => by unfold train trainG; rw [hw, hn]; rfl⟩
    | ok now =>
      cases now with
      | false =>
        refine ⟨w, fun rnd _ h2 => ?_⟩
        unfold train trainG
        rw [hw, hn]
        change (rnd.geoFit s.t c.it.u wts >>= _) = Except.map _ (gen.geoFit c.it.u wts w >>= _)
        refine bind_proj (by rw [h2]) fun v _ => rfl
      | true =>
        cases hf : gen.flowFit s.flow c.it.u wts w with
        | error x =>
          refine ⟨w, fun rnd h1 _ => ?_⟩
          unfold train trainG
          rw [hw, hn]
          change (rnd.flowFit s.t s.flow c.it.u wts >>= _) = Except.map _ (gen.flowFit s.flow c.it.u wts w >>= _)
          rw [show rnd.flowFit s.t s.flow c.it.u wts = .error x by rw [h1]; simp only [hf]; rfl, hf]
          rfl
        | ok f =>
          refine ⟨f.2, fun rnd h1 h2 => ?_⟩
          unfold train trainG
          rw [hw, hn]
          change (rnd.flowFit s.t s.flow c.it.u wts >>= _) = Except.map _ (gen.flowFit s.flow c.it.u wts w >>= _)
          rw [show rnd.flowFit s.t s.flow c.it.u wts = .ok f.1 by rw [h1]; simp only [hf]; rfl, hf]
          change (rnd.geoFit s.t (c.it.u.map fun u => (e.flowFwd f.1 u).1) wts >>= _) = Except.map _ (gen.geoFit (c.it.u.map fun u => (e.flowFwd f.1 u).1) wts f.2 >>= _)
          refine bind_proj (by rw [h2]) fun v _ => rfl

theorem resample_stream (hg : Generates gen low high) (e : SamplerEnv d B Φ) (s : Sampler d B Φ) (c : Cur d B) (w : W) (rnd : Rnd d Φ)
    (h1 : ∀ k < e.nActive, rnd.mult s.t k = (gen.uniform e.nActive w).1.getD k 0) (h2 : rnd.syst s.t = (gen.uniform 1 w).1.getD 0 0) :
    resampleStep e rnd s c = (resampleStepG gen e s c w).map Prod.fst := by
  have hidx : ∀ wts, resampleIdx e rnd s.t wts = (resampleIdxG gen e wts w).map Prod.fst := by
    intro wts
    unfold resampleIdx resampleIdxG
    cases e.resample with
    | mult =>
      have : (List.range e.nActive).map (rnd.mult s.t) = (gen.uniform e.nActive w).1 := by
        apply List.ext_getElem
        · simp [(hg.uniform e.nActive w).1]
        · intro k a1 a2
          have hk : k < e.nActive := by simpa using a1
          rw [List.getElem_map, List.getElem_range, h1 k hk, getD_lt a2]
      simp only [this]
      cases multinomialResample wts (gen.uniform e.nActive w).1 <;> rfl
    | syst =>
      simp only [h2]
      cases systematicResample e.nActive wts ((gen.uniform 1 w).1.getD 0 0) <;> rfl
  unfold resampleStep resampleStepG
  refine bind_same fun wts _ => bind_proj (hidx wts) fun r _ => ?_
  refine bind_same fun _ _ => bind_same fun _ _ => bind_same fun _ _ => bind_same fun _ _ => bind_same fun _ _ => bind_same fun _ _ => rfl

theorem mutate_stream (hg : Generates gen low high) (e : SamplerEnv d B Φ) (fuel : ℕ) (s : Sampler d B Φ) (c : Cur d B) (w : W) (m0 : ℕ → ℕ → Draw d) :
    ∃ m, DrawnM gen m0 m ∧ ∀ rnd : Rnd d Φ, rnd.mcmc s.t = m → mutate e rnd fuel s c = (mutateG gen e fuel s c w).map fun r => (r.1, r.2.1) := by
  cases h1 : toWalkers c.it s.haveBlobs with
  | error x => exact ⟨m0, .refl _ _, fun rnd _ => by unfold mutate mutateG; rw [h1]; rfl⟩
  | ok ws =>
    cases h2 : kernelEnv e s c.it.beta with
    | error x => exact ⟨m0, .refl _ _, fun rnd _ => by unfold mutate mutateG; rw [h1, h2]; rfl⟩
    | ok k =>
      obtain ⟨m, k1, k2⟩ := mcmc_stream hg k fuel ws w m0
      refine ⟨m, k1, fun rnd hr => ?_⟩
      unfold mutate mutateG
      rw [h1, h2]
      change (mcmc k fuel (rnd.mcmc s.t) ws >>= _) = Except.map _ (mcmcG gen k fuel ws w >>= _)
      refine bind_proj (by rw [hr]; exact k2) fun v _ => rfl

/-- The two oracles agree on everything up to iteration `T`, and on what is not drawn in the main loop. -/
structure UpTo (T : ℕ) (r0 r : Rnd d Φ) : Prop where
  prior : r.prior = r0.prior
  warm : r.warm = r0.warm
  flowSample : r.flowSample = r0.flowSample
  boot : r.boot = r0.boot
  step : ∀ t ≤ T, r.mult t = r0.mult t ∧ r.syst t = r0.syst t ∧ r.mcmc t = r0.mcmc t ∧ r.flowFit t = r0.flowFit t ∧ r.geoFit t = r0.geoFit t

theorem UpTo.refl (T : ℕ) (r : Rnd d Φ) : UpTo T r r := ⟨rfl, rfl, rfl, rfl, fun _ _ => ⟨rfl, rfl, rfl, rfl, rfl⟩⟩

theorem UpTo.trans {T T' : ℕ} (hT : T ≤ T') {r0 r1 r2 : Rnd d Φ} (h : UpTo T r0 r1) (k : UpTo T' r1 r2) : UpTo T r0 r2 where
  prior := k.prior.trans h.prior
  warm := k.warm.trans h.warm
  flowSample := k.flowSample.trans h.flowSample
  boot := k.boot.trans h.boot
  step t ht := by
    obtain ⟨a1, a2, a3, a4, a5⟩ := h.step t ht
    obtain ⟨b1, b2, b3, b4, b5⟩ := k.step t (ht.trans hT)
    exact ⟨b1.trans a1, b2.trans a2, b3.trans a3, b4.trans a4, b5.trans a5⟩

theorem bind_eq {α γ : Type} {a b : Except PyErr α} {f g : α → Except PyErr γ} (h : a = b) (k : ∀ v, b = .ok v → f v = g v) : (a >>= f) = (b >>= g) := by
  subst h
  cases a with
  | error x => rfl
  | ok v => exact k v rfl

/-- One iteration reads only what is drawn at its own number. -/
theorem smcStep_congr {e : SamplerEnv d B Φ} {fuel : ℕ} {s : Sampler d B Φ} {r0 r : Rnd d Φ}
    (h : ∀ t ≤ s.t + 1, r.mult t = r0.mult t ∧ r.syst t = r0.syst t ∧ r.mcmc t = r0.mcmc t ∧ r.flowFit t = r0.flowFit t ∧ r.geoFit t = r0.geoFit t) :
    smcStep e r fuel s = smcStep e r0 fuel s := by
  unfold smcStep
  refine bind_eq rfl fun c _ => bind_eq rfl fun a ha => ?_
  obtain ⟨s1, c1⟩ := a
  have ht : s1.t = s.t + 1 := by
    obtain ⟨nEff, beta, logz, ess, w, tr, -, -, -, g, rfl⟩ := reweight_ok ha
    rfl
  obtain ⟨a1, a2, a3, a4, a5⟩ := h s1.t ht.le
  refine bind_eq (by unfold train; rw [a4, a5]) fun s2 hs2 => ?_
  have ht2 : s2.t = s1.t := by
    rcases train_ok hs2 with ⟨-, f, g, rfl⟩ | ⟨-, g, rfl⟩ <;> rfl
  rw [← ht2] at a1 a2 a3
  refine bind_eq (by unfold resampleStep resampleIdx; rw [a1, a2]) fun c2 _ => ?_
  exact bind_eq (by unfold mutate; rw [a3]) fun _ _ => rfl

/-- An oracle with the entries of iteration `T` replaced. -/
def patch (r0 : Rnd d Φ) (T : ℕ) (ff : Φ → List (Pt d) → List F → Except PyErr Φ) (gf : List (Pt d) → List F → Except PyErr (Geo d)) (mu : ℕ → ℝ) (sy : ℝ)
    (m : ℕ → ℕ → Draw d) : Rnd d Φ :=
  { r0 with flowFit := Function.update r0.flowFit T ff, geoFit := Function.update r0.geoFit T gf, mult := Function.update r0.mult T mu,
            syst := Function.update r0.syst T sy, mcmc := Function.update r0.mcmc T m }

theorem patch_upTo (r0 : Rnd d Φ) (T : ℕ) {ff gf mu sy m} : UpTo T r0 (patch r0 (T + 1) ff gf mu sy m) :=
  ⟨rfl, rfl, rfl, rfl, fun t ht => by
    have : t ≠ T + 1 := by omega
    exact ⟨Function.update_of_ne this _ _, Function.update_of_ne this _ _, Function.update_of_ne this _ _, Function.update_of_ne this _ _, Function.update_of_ne this _ _⟩⟩

theorem patch_drawn (r0 : Rnd d Φ) (T : ℕ) {ff gf mu sy m} (h1 : ∀ φ us ws, ff φ us ws = r0.flowFit T φ us ws ∨ ∃ w, ff φ us ws = (gen.flowFit φ us ws w).map Prod.fst)
    (h2 : ∀ us ws, gf us ws = r0.geoFit T us ws ∨ ∃ w, gf us ws = (gen.geoFit us ws w).map Prod.fst) (h3 : ∀ k, mu k = r0.mult T k ∨ ∃ n w, mu k ∈ (gen.uniform n w).1)
    (h4 : sy = r0.syst T ∨ ∃ n w, sy ∈ (gen.uniform n w).1) (h5 : DrawnM gen (r0.mcmc T) m) : Drawn gen r0 (patch r0 T ff gf mu sy m) where
  prior _ := .inl rfl
  warm _ _ := .inl rfl
  flowSample _ _ _ := .inl rfl
  boot _ _ _ := .inl rfl
  mult t k := by
    by_cases ht : t = T
    · subst ht; simp only [patch, Function.update_self]; exact h3 k
    · simp only [patch, Function.update_of_ne ht, true_or]
  syst t := by
    by_cases ht : t = T
    · subst ht; simp only [patch, Function.update_self]; exact h4
    · simp only [patch, Function.update_of_ne ht, true_or]
  gamma t i k := by
    by_cases ht : t = T
    · subst ht; simp only [patch, Function.update_self]; exact h5.gamma i k
    · simp only [patch, Function.update_of_ne ht, true_or]
  z t i k := by
    by_cases ht : t = T
    · subst ht; simp only [patch, Function.update_self]; exact h5.z i k
    · simp only [patch, Function.update_of_ne ht, true_or]
  rand t i k := by
    by_cases ht : t = T
    · subst ht; simp only [patch, Function.update_self]; exact h5.rand i k
    · simp only [patch, Function.update_of_ne ht, true_or]
  flowFit t φ us ws := by
    by_cases ht : t = T
    · subst ht; simp only [patch, Function.update_self]; exact h1 φ us ws
    · simp only [patch, Function.update_of_ne ht, true_or]
  geoFit t us ws := by
    by_cases ht : t = T
    · subst ht; simp only [patch, Function.update_self]; exact h2 us ws
    · simp only [patch, Function.update_of_ne ht, true_or]

theorem smcStep_stream (hg : Generates gen low high) (e : SamplerEnv d B Φ) (fuel : ℕ) (s : Sampler d B Φ) (w : W) (r0 : Rnd d Φ) :
    ∃ r, Drawn gen r0 r ∧ UpTo s.t r0 r ∧ smcStep e r fuel s = (smcStepG gen e fuel s w).map Prod.fst := by
  cases hc : s.cur with
  | none => exact ⟨r0, .refl _ _, .refl _ _, by unfold smcStep smcStepG; rw [hc]; rfl⟩
  | some c =>
    cases hr : reweight e fuel s c with
    | error x =>
      refine ⟨r0, .refl _ _, .refl _ _, ?_⟩
      unfold smcStep smcStepG
      rw [hc]
      change (reweight e fuel s c >>= _) = Except.map _ (reweight e fuel s c >>= _)
      rw [hr]
      rfl
    | ok a =>
      obtain ⟨s1, c1⟩ := a
      have ht : s1.t = s.t + 1 := by
        obtain ⟨nEff, beta, logz, ess, wt, tr, -, -, -, g, rfl⟩ := reweight_ok hr
        rfl
      obtain ⟨wg, htrain⟩ := train_stream (gen := gen) e s1 c1 w
      rw [ht] at htrain
      cases hs2 : trainG gen e s1 c1 w with
      | error x =>
        refine ⟨patch r0 (s.t + 1) (fun φ us ws => (gen.flowFit φ us ws w).map Prod.fst) (fun us ws => (gen.geoFit us ws wg).map Prod.fst) (r0.mult (s.t + 1)) (r0.syst (s.t + 1))
          (r0.mcmc (s.t + 1)), patch_drawn r0 _ (fun _ _ _ => .inr ⟨w, rfl⟩) (fun _ _ => .inr ⟨wg, rfl⟩) (fun _ => .inl rfl) (.inl rfl) (.refl _ _), patch_upTo _ _, ?_⟩
        have h1 := htrain (patch r0 (s.t + 1) (fun φ us ws => (gen.flowFit φ us ws w).map Prod.fst) (fun us ws => (gen.geoFit us ws wg).map Prod.fst) (r0.mult (s.t + 1))
          (r0.syst (s.t + 1)) (r0.mcmc (s.t + 1))) (by simp [patch]) (by simp [patch])
        generalize patch r0 (s.t + 1) _ _ _ _ _ = r at h1
        unfold smcStep smcStepG
        rw [hc]
        change (reweight e fuel s c >>= _) = Except.map _ (reweight e fuel s c >>= _)
        rw [hr]
        change (train e r s1 c1 >>= _) = Except.map _ (trainG gen e s1 c1 w >>= _)
        rw [h1, hs2]
        rfl
      | ok b =>
        obtain ⟨s2, w2⟩ := b
        let mu : ℕ → ℝ := fun k => (gen.uniform e.nActive w2).1.getD k (r0.mult (s.t + 1) k)
        let sy : ℝ := (gen.uniform 1 w2).1.getD 0 (r0.syst (s.t + 1))
        have hmu : ∀ k, mu k = r0.mult (s.t + 1) k ∨ ∃ n w, mu k ∈ (gen.uniform n w).1 := fun k => (getD_or _ _ _).imp_right fun h => ⟨_, _, h⟩
        have hsy : sy = r0.syst (s.t + 1) ∨ ∃ n w, sy ∈ (gen.uniform n w).1 := (getD_or _ _ _).imp_right fun h => ⟨_, _, h⟩
        have key : ∃ m, DrawnM gen (r0.mcmc (s.t + 1)) m ∧ ∀ r : Rnd d Φ, (r.flowFit (s.t + 1) = fun φ us ws => (gen.flowFit φ us ws w).map Prod.fst) →
            (r.geoFit (s.t + 1) = fun us ws => (gen.geoFit us ws wg).map Prod.fst) → r.mult (s.t + 1) = mu → r.syst (s.t + 1) = sy → r.mcmc (s.t + 1) = m →
            smcStep e r fuel s = (smcStepG gen e fuel s w).map Prod.fst := by
          have ht2 : ∀ r : Rnd d Φ, train e r s1 c1 = .ok s2 → s2.t = s.t + 1 := by
            intro r h
            rw [← ht]
            rcases train_ok h with ⟨-, f, g, rfl⟩ | ⟨-, g, rfl⟩ <;> rfl
          have hs2t : s2.t = s.t + 1 := by
            have h1 := htrain { r0 with flowFit := fun _ φ us ws => (gen.flowFit φ us ws w).map Prod.fst, geoFit := fun _ us ws => (gen.geoFit us ws wg).map Prod.fst } rfl rfl
            rw [hs2] at h1
            exact ht2 _ h1
          have hres : ∀ r : Rnd d Φ, r.mult (s.t + 1) = mu → r.syst (s.t + 1) = sy → resampleStep e r s2 c1 = (resampleStepG gen e s2 c1 w2).map Prod.fst := by
            intro r h1 h2
            refine resample_stream hg e s2 c1 w2 r (fun k hk => ?_) ?_
            · rw [hs2t, h1]
              exact getD_default (by rw [(hg.uniform _ _).1]; exact hk) _ _
            · rw [hs2t, h2]
              exact getD_default (by rw [(hg.uniform _ _).1]; exact Nat.one_pos) _ _
          have start : ∀ r : Rnd d Φ, (r.flowFit (s.t + 1) = fun φ us ws => (gen.flowFit φ us ws w).map Prod.fst) →
              (r.geoFit (s.t + 1) = fun us ws => (gen.geoFit us ws wg).map Prod.fst) → r.mult (s.t + 1) = mu → r.syst (s.t + 1) = sy →
              (∀ c3 w3, resampleStepG gen e s2 c1 w2 = .ok (c3, w3) → mutate e r fuel s2 c3 = (mutateG gen e fuel s2 c3 w3).map fun r => (r.1, r.2.1)) →
              smcStep e r fuel s = (smcStepG gen e fuel s w).map Prod.fst := by
            intro r h1 h2 h3 h4 h5
            unfold smcStep smcStepG
            rw [hc]
            change (reweight e fuel s c >>= _) = Except.map _ (reweight e fuel s c >>= _)
            rw [hr]
            change (train e r s1 c1 >>= _) = Except.map _ (trainG gen e s1 c1 w >>= _)
            rw [htrain r h1 h2, hs2]
            change (resampleStep e r s2 c1 >>= _) = Except.map _ (resampleStepG gen e s2 c1 w2 >>= _)
            refine bind_proj (hres r h3 h4) fun v hv => ?_
            exact bind_proj (h5 v.1 v.2 hv) fun _ _ => rfl
          cases hs3 : resampleStepG gen e s2 c1 w2 with
          | error x => exact ⟨_, .refl _ _, fun r h1 h2 h3 h4 _ => start r h1 h2 h3 h4 fun c3 w3 h => by rw [hs3] at h; cases h⟩
          | ok q =>
            obtain ⟨m, k1, k2⟩ := mutate_stream hg e fuel s2 q.1 q.2 (r0.mcmc (s.t + 1))
            refine ⟨m, k1, fun r h1 h2 h3 h4 h5 => start r h1 h2 h3 h4 fun c3 w3 h => ?_⟩
            rw [hs3] at h
            simp only [Except.ok.injEq] at h
            subst h
            exact k2 r (by rw [hs2t]; exact h5)
        obtain ⟨m, k1, k2⟩ := key
        exact ⟨patch r0 (s.t + 1) (fun φ us ws => (gen.flowFit φ us ws w).map Prod.fst) (fun us ws => (gen.geoFit us ws wg).map Prod.fst) mu sy m,
          patch_drawn r0 _ (fun _ _ _ => .inr ⟨w, rfl⟩) (fun _ _ => .inr ⟨wg, rfl⟩) hmu hsy k1, patch_upTo _ _,
          k2 _ (by simp [patch]) (by simp [patch]) (by simp [patch]) (by simp [patch]) (by simp [patch])⟩

/-! ### run -/

/-- What is seen of a run when the generators are forgotten. -/
abbrev TraceG.forget (t : TraceG d B Φ W) : Trace d B Φ := Outcome t

theorem andThen_proj {a : Trace d B Φ} {ga : TraceG d B Φ W} {f : Sampler d B Φ → Trace d B Φ} {g : Sampler d B Φ → W → TraceG d B Φ W}
    (h : a = ga.forget) (k : ∀ s w, ga.2 = .ok (s, w) → f s = (g s w).forget) : a.andThen f = (ga.andThen g).forget := by
  subst h
  obtain ⟨l, r⟩ := ga
  cases r with
  | error x => rfl
  | ok v =>
    have hk := k v.1 v.2 rfl
    change (l ++ (f v.1).1, (f v.1).2) = (l ++ (g v.1 v.2).1, (g v.1 v.2).2.map Prod.fst)
    rw [hk]
    rfl

theorem andThen_eq {a : Trace d B Φ} {f g : Sampler d B Φ → Trace d B Φ} (k : ∀ s, a.2 = .ok s → f s = g s) : a.andThen f = a.andThen g := by
  obtain ⟨l, r⟩ := a
  cases r with
  | error x => rfl
  | ok v =>
    change (l ++ (f v).1, (f v).2) = (l ++ (g v).1, (g v).2)
    rw [k v rfl]

theorem save_forget (k : Option ℕ) (t0 : ℕ) (s : Sampler d B Φ) (w : W) : Trace.save k t0 s = (TraceG.save k t0 s w).forget := by
  unfold Trace.save TraceG.save
  cases saveNow k t0 s <;> rfl

theorem saveG_ok {k : Option ℕ} {t0 : ℕ} {s s' : Sampler d B Φ} {w w' : W} (h : (TraceG.save k t0 s w).2 = .ok (s', w')) : s' = s ∧ w' = w := by
  unfold TraceG.save at h
  cases hs : saveNow k t0 s with
  | error x => rw [hs] at h; cases h
  | ok l =>
    rw [hs] at h
    simp only [Except.ok.injEq, Prod.mk.injEq] at h
    exact ⟨h.1.symm, h.2.symm⟩

theorem lift_forget {a : Except PyErr (Sampler d B Φ)} {g : Except PyErr (Sampler d B Φ × W)} (h : a = g.map Prod.fst) : Trace.lift a = (TraceG.lift g).forget := by
  subst h; rfl

theorem smcLoop_congr {e : SamplerEnv d B Φ} {fuel : ℕ} {k : Option ℕ} {t0 : ℕ} {r0 r : Rnd d Φ}
    (h : ∀ t, r.mult t = r0.mult t ∧ r.syst t = r0.syst t ∧ r.mcmc t = r0.mcmc t ∧ r.flowFit t = r0.flowFit t ∧ r.geoFit t = r0.geoFit t) (n : ℕ) :
    ∀ s : Sampler d B Φ, smcLoop e r fuel k t0 n s = smcLoop e r0 fuel k t0 n s := by
  induction n with
  | zero => intro s; unfold smcLoop; rfl
  | succ n ih =>
    intro s
    unfold smcLoop
    have : ((Trace.save k t0 s).andThen fun s => (Trace.lift (smcStep e r fuel s)).andThen fun s => smcLoop e r fuel k t0 n s) =
        ((Trace.save k t0 s).andThen fun s => (Trace.lift (smcStep e r0 fuel s)).andThen fun s => smcLoop e r0 fuel k t0 n s) := by
      refine andThen_eq fun s1 _ => ?_
      rw [smcStep_congr fun t _ => h t]
      exact andThen_eq fun s2 _ => ih s2
    simp only [this]

theorem smcLoop_stream (hg : Generates gen low high) (e : SamplerEnv d B Φ) (fuel : ℕ) (k : Option ℕ) (t0 : ℕ) (n : ℕ) : ∀ (s : Sampler d B Φ) (w : W) (r0 : Rnd d Φ),
    ∃ r, Drawn gen r0 r ∧ UpTo s.t r0 r ∧ smcLoop e r fuel k t0 n s = (smcLoopG gen e fuel k t0 n s w).forget := by
  induction n with
  | zero =>
    intro s w r0
    refine ⟨r0, .refl _ _, .refl _ _, ?_⟩
    unfold smcLoop smcLoopG
    cases notTermination e s with
    | error x => rfl
    | ok v => cases v <;> rfl
  | succ n ih =>
    intro s w r0
    obtain ⟨r1, h1, h2, h3⟩ := smcStep_stream hg e fuel s w r0
    have base : ∀ r : Rnd d Φ, smcStep e r fuel s = smcStep e r1 fuel s →
        (∀ s' w', smcStepG gen e fuel s w = .ok (s', w') → smcLoop e r fuel k t0 n s' = (smcLoopG gen e fuel k t0 n s' w').forget) →
        smcLoop e r fuel k t0 (n + 1) s = (smcLoopG gen e fuel k t0 (n + 1) s w).forget := by
      intro r hr hl
      unfold smcLoop smcLoopG
      cases notTermination e s with
      | error x => rfl
      | ok v =>
        cases v with
        | false => rfl
        | true =>
          refine andThen_proj (save_forget _ _ _ _) fun q wq hq => ?_
          obtain ⟨rfl, rfl⟩ := saveG_ok hq
          exact andThen_proj (lift_forget (hr.trans h3)) fun s' w' hs' => hl s' w' hs'
    cases hs : smcStepG gen e fuel s w with
    | error x => exact ⟨r1, h1, h2, base r1 rfl fun s' w' h => by rw [hs] at h; cases h⟩
    | ok v =>
      obtain ⟨s', w'⟩ := v
      have ht : s'.t = s.t + 1 := by
        rw [hs] at h3
        obtain ⟨c, s1, c1, s2, c2, s3, c3, g0, g1, g2, g3, g4, rfl⟩ := smcStep_ok h3
        obtain ⟨nEff, beta, logz, ess, wt, tr, -, -, -, g, rfl⟩ := reweight_ok g1
        obtain ⟨ws, kk, r, -, -, -, g5⟩ := mutate_ok g4
        simp only [writeBack, Prod.mk.injEq] at g5
        obtain ⟨rfl, rfl⟩ := g5
        rcases train_ok g2 with ⟨-, f, g, rfl⟩ | ⟨-, g, rfl⟩ <;> rfl
      obtain ⟨r, k1, k2, k3⟩ := ih s' w' r1
      refine ⟨r, h1.trans k1, h2.trans (by omega) k2, base r (smcStep_congr fun t htt => k2.step t (by omega)) fun s'' w'' h => ?_⟩
      rw [hs] at h
      simp only [Except.ok.injEq, Prod.mk.injEq] at h
      obtain ⟨rfl, rfl⟩ := h
      exact k3

/-! ### warm-up -/

/-- The oracle with other integers for the warm-up. -/
def reWarm (r0 : Rnd d Φ) (f : ℕ → ℕ → ℕ) : Rnd d Φ := { r0 with warm := f }

theorem reWarm_drawn (r0 : Rnd d Φ) (f : ℕ → ℕ → ℕ) (h : ∀ t k, f t k = r0.warm t k ∨ ∃ n size w, f t k ∈ (gen.ints n size w).1) : Drawn gen r0 (reWarm r0 f) :=
  { Drawn.refl gen r0 with warm := h }

theorem infDonors_congr {logl : List F} {f g : ℕ → ℕ} (h : ∀ k < (logl.map F.isinf).count true, f k = g k) : infDonors logl f = infDonors logl g := by
  unfold infDonors
  dsimp only
  by_cases h1 : maskSelect (logl.map F.isinf) (List.range logl.length) = []
  · rw [if_pos h1, if_pos h1]
  · rw [if_neg h1, if_neg h1]
    have hlen : (maskSelect (logl.map F.isinf) (List.range logl.length)).length ≤ (logl.map F.isinf).count true := by
      unfold maskSelect
      rw [List.length_map]
      generalize hm : logl.map F.isinf = m
      have : m.length = (List.range logl.length).length := by rw [← hm]; simp
      generalize List.range logl.length = l at this
      clear hm h h1
      induction m generalizing l with
      | nil => simp
      | cons b m ih =>
        cases l with
        | nil => simp at this
        | cons a l =>
          have := ih l (by simpa using this)
          cases b <;> simp_all
    have : ((List.range (maskSelect (logl.map F.isinf) (List.range logl.length)).length).map fun k =>
        (maskSelect ((logl.map F.isinf).map (!·)) (List.range logl.length)).getD (f k % (maskSelect ((logl.map F.isinf).map (!·)) (List.range logl.length)).length) 0) =
      ((List.range (maskSelect (logl.map F.isinf) (List.range logl.length)).length).map fun k =>
        (maskSelect ((logl.map F.isinf).map (!·)) (List.range logl.length)).getD (g k % (maskSelect ((logl.map F.isinf).map (!·)) (List.range logl.length)).length) 0) := by
      refine List.map_congr_left fun k hk => ?_
      rw [h k (lt_of_lt_of_le (List.mem_range.mp hk) hlen)]
    rw [this]

theorem replaceInf_congr {b : Batch d B} {hb : Bool} {f g : ℕ → ℕ} (h : ∀ k < (b.logl.map F.isinf).count true, f k = g k) : replaceInf b hb f = replaceInf b hb g := by
  unfold replaceInf
  rw [infDonors_congr h]

theorem warmupStep_stream (hg : Generates gen low high) (e : SamplerEnv d B Φ) (s : Sampler d B Φ) (i : ℕ) (w : W) (f0 : ℕ → ℕ) :
    ∃ f : ℕ → ℕ, (∀ k, f k = f0 k ∨ ∃ n size w, f k ∈ (gen.ints n size w).1) ∧
      ∀ rnd : Rnd d Φ, rnd.warm s.t = f → warmupStep e rnd s i = (warmupStepG gen e s i w).map Prod.fst := by
  cases hb : warmupBatch e s i with
  | error x => exact ⟨f0, fun _ => .inl rfl, fun rnd _ => by unfold warmupStep warmupStepG; rw [hb]; rfl⟩
  | ok b =>
    refine ⟨fun k => (warmDrawsG gen b.1.logl w).1.getD k (f0 k), fun k => ?_, fun rnd hr => ?_⟩
    · rcases getD_or (warmDrawsG gen b.1.logl w).1 k (f0 k) with h | h
      · exact .inl h
      · right
        show ∃ n size w', (warmDrawsG gen b.1.logl w).1.getD k (f0 k) ∈ (gen.ints n size w').1
        generalize (warmDrawsG gen b.1.logl w).1.getD k (f0 k) = v at h ⊢
        unfold warmDrawsG at h
        dsimp only at h
        split_ifs at h
        · simp at h
        · exact ⟨_, _, _, h⟩
    · unfold warmupStep warmupStepG
      refine bind_same fun b' hb' => ?_
      rw [hb] at hb'
      simp only [Except.ok.injEq] at hb'
      subst hb'
      have : replaceInf b.1 b.2 (rnd.warm s.t) = replaceInf b.1 b.2 fun k => (warmDrawsG gen b.1.logl w).1.getD k 0 := by
        refine replaceInf_congr fun k hk => ?_
        rw [hr]
        refine getD_default ?_ _ _
        unfold warmDrawsG
        dsimp only
        rw [if_neg (by omega), (hg.ints _ _ _).1]
        exact hk
      obtain ⟨b0, hbb⟩ := b
      dsimp only at this ⊢
      rw [this]
      exact bind_same fun _ _ => rfl

theorem warmupStep_congr {e : SamplerEnv d B Φ} {s : Sampler d B Φ} {i : ℕ} {r r0 : Rnd d Φ} (h : r.warm s.t = r0.warm s.t) : warmupStep e r s i = warmupStep e r0 s i := by
  unfold warmupStep
  rw [h]

theorem warmupLoop_stream (hg : Generates gen low high) (e : SamplerEnv d B Φ) (k : Option ℕ) (t0 : ℕ) (n : ℕ) : ∀ (i : ℕ) (s : Sampler d B Φ) (w : W) (f0 : ℕ → ℕ → ℕ),
    ∃ f : ℕ → ℕ → ℕ, (∀ t k, f t k = f0 t k ∨ ∃ n size w, f t k ∈ (gen.ints n size w).1) ∧ (∀ t < s.t, f t = f0 t) ∧
      ∀ r : Rnd d Φ, r.warm = f → warmupLoop e r k t0 n i s = (warmupLoopG gen e k t0 n i s w).forget := by
  induction n with
  | zero => intro i s w f0; exact ⟨f0, fun _ _ => .inl rfl, fun _ _ => rfl, fun r _ => by unfold warmupLoop warmupLoopG; rfl⟩
  | succ n ih =>
    intro i s w f0
    obtain ⟨g, h1, h2⟩ := warmupStep_stream hg e s i w (f0 s.t)
    have hup : ∀ t k, Function.update f0 s.t g t k = f0 t k ∨ ∃ n size w, Function.update f0 s.t g t k ∈ (gen.ints n size w).1 := by
      intro t k
      by_cases ht : t = s.t
      · subst ht; rw [Function.update_self]; exact h1 k
      · rw [Function.update_of_ne ht]; exact .inl rfl
    have base : ∀ r : Rnd d Φ, r.warm s.t = g → (∀ s' w', warmupStepG gen e s i w = .ok (s', w') → warmupLoop e r k t0 n (i + 1) s' = (warmupLoopG gen e k t0 n (i + 1) s' w').forget) →
        warmupLoop e r k t0 (n + 1) i s = (warmupLoopG gen e k t0 (n + 1) i s w).forget := by
      intro r hr hl
      unfold warmupLoop warmupLoopG
      refine andThen_proj (save_forget _ _ _ _) fun q wq hq => ?_
      obtain ⟨rfl, rfl⟩ := saveG_ok hq
      exact andThen_proj (lift_forget (h2 r hr)) fun s' w' hs' => hl s' w' hs'
    cases hs : warmupStepG gen e s i w with
    | error x =>
      exact ⟨_, hup, fun t ht => Function.update_of_ne (by omega) _ _, fun r hr => base r (by rw [hr, Function.update_self]) fun s' w' h => by rw [hs] at h; cases h⟩
    | ok v =>
      obtain ⟨s', w'⟩ := v
      have ht : s'.t = s.t + 1 := by
        unfold warmupStepG at hs
        obtain ⟨b, -, hs⟩ := bind_ok hs
        obtain ⟨b', -, hs⟩ := bind_ok hs
        simp only [pure, Except.pure, Except.ok.injEq, Prod.mk.injEq] at hs
        rw [← hs.1]
      obtain ⟨f, k1, k2, k3⟩ := ih (i + 1) s' w' (Function.update f0 s.t g)
      refine ⟨f, fun t k => or_trans (Q := fun v => ∃ n size w, v ∈ (gen.ints n size w).1) (hup t k) (k1 t k), fun t htt => ?_, fun r hr => ?_⟩
      · rw [k2 t (by omega), Function.update_of_ne (by omega)]
      · refine base r (by rw [hr, k2 _ (by omega), Function.update_self]) fun s'' w'' h => ?_
        rw [hs] at h
        simp only [Except.ok.injEq, Prod.mk.injEq] at h
        obtain ⟨rfl, rfl⟩ := h
        exact k3 r hr

/-! ### evidence -/

theorem bootG_spec (hg : Generates gen low high) (n reps : ℕ) : ∀ w, (bootG gen n reps w).1.length = reps ∧
    ∀ l ∈ (bootG gen n reps w).1, ∃ w', l = (gen.ints n n w').1 := by
  induction reps with
  | zero => intro w; simp [bootG]
  | succ r ih =>
    intro w
    obtain ⟨h1, h2⟩ := ih (gen.ints n n w).2
    refine ⟨by simp [bootG, h1], fun l hl => ?_⟩
    simp only [bootG, List.mem_cons] at hl
    rcases hl with rfl | hl
    · exact ⟨_, rfl⟩
    · exact h2 l hl

theorem bootstrapErr_congr {logw : List F} {n : ℕ} {f g : ℕ → ℕ → ℕ} (h : ∀ r < Max.max n 1000, ∀ k < logw.length, f r k = g r k) :
    bootstrapErr logw n f = bootstrapErr logw n g := by
  unfold bootstrapErr
  congr 1
  refine List.map_congr_left fun r hr => ?_
  congr 2
  refine List.map_congr_left fun k hk => ?_
  rw [h r (List.mem_range.mp hr) k (List.mem_range.mp hk)]

theorem finalEvidence_stream (hg : Generates gen low high) (e : SamplerEnv d B Φ) (s : Sampler d B Φ) (w : W) (b0 : ℕ → ℕ → ℕ) :
    ∃ b : ℕ → ℕ → ℕ, (∀ r k, b r k = b0 r k ∨ ∃ n size w, b r k ∈ (gen.ints n size w).1) ∧
      ∀ rnd : Rnd d Φ, (rnd.flowSample s.t = fun φ n => (gen.flowSample φ n w).1) → rnd.boot s.t = b → finalEvidence e rnd s = (finalEvidenceG gen e s w).map Prod.fst := by
  by_cases hc : s.nEvidence > 0 ∧ e.preconditioned = true
  swap
  · refine ⟨b0, fun _ _ => .inl rfl, fun rnd _ _ => ?_⟩
    unfold finalEvidence finalEvidenceG
    rw [if_neg hc, if_neg hc]
    exact bind_same fun _ _ => rfl
  let q := gen.flowSample s.flow s.nEvidence w
  cases hi : s.scaler.inverse (q.1.map (·.1)) with
  | error x =>
    refine ⟨b0, fun _ _ => .inl rfl, fun rnd h1 _ => ?_⟩
    unfold finalEvidence finalEvidenceG
    rw [if_pos hc, if_pos hc]
    unfold computeEvidence computeEvidenceG
    dsimp only
    rw [h1]
    simp only [q] at hi
    rw [hi]
    rfl
  | ok inv =>
    cases hl : logLike e.like (keepFinite (e.logPrior (inv.map (·.1))) (inv.map (·.1))) with
    | error x =>
      refine ⟨b0, fun _ _ => .inl rfl, fun rnd h1 _ => ?_⟩
      unfold finalEvidence finalEvidenceG
      rw [if_pos hc, if_pos hc]
      unfold computeEvidence computeEvidenceG
      dsimp only
      rw [h1]
      simp only [q] at hi
      rw [hi]
      change (logLike e.like _ >>= _) = Except.map _ (logLike e.like _ >>= _)
      rw [hl]
      rfl
    | ok l =>
      obtain ⟨ll, bl, hbl⟩ := l
      let z := evidenceOf ll (keepFinite (e.logPrior (inv.map (·.1))) (e.logPrior (inv.map (·.1)))) (keepFinite (e.logPrior (inv.map (·.1))) (inv.map (·.2)))
        (keepFinite (e.logPrior (inv.map (·.1))) (q.1.map (·.2)))
      let bt := bootG gen z.1.length (Max.max s.nEvidence 1000) q.2
      refine ⟨fun r k => if r < bt.1.length ∧ k < z.1.length then (bt.1.getD r []).getD k 0 else b0 r k, fun r k => ?_, fun rnd h1 h2 => ?_⟩
      · dsimp only
        by_cases hrk : r < bt.1.length ∧ k < z.1.length
        · right
          rw [if_pos hrk]
          obtain ⟨w', hw'⟩ := (bootG_spec hg _ _ _).2 _ (by rw [getD_lt hrk.1]; exact List.getElem_mem hrk.1 : bt.1.getD r [] ∈ bt.1)
          refine ⟨z.1.length, z.1.length, w', ?_⟩
          rw [hw', getD_lt (by rw [(hg.ints _ _ _).1]; exact hrk.2)]
          exact List.getElem_mem _
        · left; rw [if_neg hrk]
      · have hboot : bootstrapErr z.1 s.nEvidence (rnd.boot s.t) = bootstrapErr z.1 s.nEvidence fun r k => (bt.1.getD r []).getD k 0 := by
          refine bootstrapErr_congr fun r hr k hk => ?_
          rw [h2]
          dsimp only
          rw [if_pos ⟨by rw [(bootG_spec hg _ _ _).1]; exact hr, hk⟩]
        unfold finalEvidence finalEvidenceG
        rw [if_pos hc, if_pos hc]
        unfold computeEvidence computeEvidenceG
        dsimp only
        rw [h1]
        simp only [q] at hi
        rw [hi]
        change (logLike e.like _ >>= _) = Except.map _ (logLike e.like _ >>= _)
        rw [hl]
        change Except.ok _ = Except.ok _
        simp only [z, q, bt] at hboot
        dsimp only
        rw [hboot]


/-! ### run -/

theorem runInit_stream (e : SamplerEnv d B Φ) (a : RunArgs) (s : Sampler d B Φ) (w : W) (r : Rnd d Φ) (h : r.prior = fun n => (gen.prior n w).1) :
    runInit e r a s = (runInitG gen e a s w).map Prod.fst := by
  unfold runInit runInitG
  dsimp only
  rw [h]
  cases s.priorSamples with
  | some ps => rfl
  | none =>
    dsimp only
    cases s.scaler.fit (gen.prior e.nPrior w).1 <;> rfl

theorem runWarmup_stream (hg : Generates gen low high) (e : SamplerEnv d B Φ) (a : RunArgs) (t0 : ℕ) (s : Sampler d B Φ) (w : W) (f0 : ℕ → ℕ → ℕ) :
    ∃ f : ℕ → ℕ → ℕ, (∀ t k, f t k = f0 t k ∨ ∃ n size w, f t k ∈ (gen.ints n size w).1) ∧
      ∀ r : Rnd d Φ, r.warm = f → runWarmup e r a t0 s = (runWarmupG gen e a t0 s w).forget := by
  unfold runWarmup runWarmupG
  by_cases h1 : s.warmup = true
  · by_cases h2 : e.nActive = 0
    · exact ⟨f0, fun _ _ => .inl rfl, fun r _ => by rw [if_pos h1, if_pos h1, if_pos h2, if_pos h2]; rfl⟩
    · obtain ⟨f, k1, -, k2⟩ := warmupLoop_stream hg e a.saveEvery t0 (e.nPrior / e.nActive) 0 s w f0
      refine ⟨f, k1, fun r hr => ?_⟩
      rw [if_pos h1, if_pos h1, if_neg h2, if_neg h2]
      exact andThen_proj (k2 r hr) fun _ _ _ => rfl
  · exact ⟨f0, fun _ _ => .inl rfl, fun r _ => by rw [if_neg h1, if_neg h1]; rfl⟩

theorem run_stream (hg : Generates gen low high) (e : SamplerEnv d B Φ) (fuel n : ℕ) (a : RunArgs) (s : Sampler d B Φ) (w : W) (r0 : Rnd d Φ)
    (h0 : r0.prior = fun n => (gen.prior n w).1) :
    ∃ r, Drawn gen r0 r ∧ r.prior = r0.prior ∧ run e r fuel n a s = (runG gen e fuel n a s w).forget := by
  have hi : ∀ r : Rnd d Φ, r.prior = r0.prior → Trace.lift (runInit e r a s) = (TraceG.lift (runInitG gen e a s w)).forget :=
    fun r hr => lift_forget (runInit_stream e a s w r (hr.trans h0))
  unfold run runG
  dsimp only
  cases c1 : runInitG gen e a s w with
  | error x => 
    rw [c1] at hi
    exact ⟨r0, .refl _ _, rfl, andThen_proj (hi r0 rfl) fun _ _ h => by cases h⟩
  | ok v1 =>
  obtain ⟨s1, w1⟩ := v1
  rw [c1] at hi
  obtain ⟨f, f1, f2⟩ := runWarmup_stream hg e a s.t s1 w1 r0.warm
  have d1 : Drawn gen r0 (reWarm r0 f) := reWarm_drawn r0 f f1
  generalize c2 : runWarmupG gen e a s.t s1 w1 = t2 at f2
  obtain ⟨l2, v2⟩ := t2
  cases v2 with
  | error x =>
    refine ⟨reWarm r0 f, d1, rfl, andThen_proj (hi _ rfl) fun s' w' h => ?_⟩
    cases h
    rw [c2]
    exact andThen_proj (f2 _ rfl) fun _ _ h => by cases h
  | ok v2 =>
  obtain ⟨s2, w2⟩ := v2
  obtain ⟨r2, d2, u2, k2⟩ := smcLoop_stream hg e fuel a.saveEvery s.t n s2 w2 (reWarm r0 f)
  generalize c3 : smcLoopG gen e fuel a.saveEvery s.t n s2 w2 = t3 at k2
  obtain ⟨l3, v3⟩ := t3
  cases v3 with
  | error x =>
    refine ⟨r2, d1.trans d2, u2.prior, andThen_proj (hi _ u2.prior) fun s' w' h => ?_⟩
    cases h
    rw [c2]
    refine andThen_proj (f2 _ u2.warm) fun s' w' h => ?_
    cases h
    rw [c3]
    exact andThen_proj k2 fun _ _ h => by cases h
  | ok v3 =>
  obtain ⟨s3, w3⟩ := v3
  obtain ⟨b, b1, b2⟩ := finalEvidence_stream hg e s3 w3 (r2.boot s3.t)
  let r3 : Rnd d Φ := { r2 with flowSample := Function.update r2.flowSample s3.t fun φ n => (gen.flowSample φ n w3).1, boot := Function.update r2.boot s3.t b }
  have d3 : Drawn gen r2 r3 := { Drawn.refl gen r2 with
    flowSample := fun t φ n => by
      by_cases ht : t = s3.t
      · subst ht; exact .inr ⟨w3, by simp [r3]⟩
      · exact .inl (by simp only [r3, Function.update_of_ne ht])
    boot := fun t i k => by
      by_cases ht : t = s3.t
      · subst ht; simpa [r3] using b1 i k
      · exact .inl (by simp only [r3, Function.update_of_ne ht]) }
  refine ⟨r3, (d1.trans d2).trans d3, u2.prior, andThen_proj (hi _ u2.prior) fun s' w' h => ?_⟩
  cases h
  rw [c2]
  refine andThen_proj (f2 _ u2.warm) fun s' w' h => ?_
  cases h
  rw [c3]
  refine andThen_proj ((smcLoop_congr (r0 := r2) (r := r3) (fun _ => ⟨rfl, rfl, rfl, rfl, rfl⟩) n s2).trans k2) fun s' w' h => ?_
  cases h
  refine andThen_proj (lift_forget (b2 r3 (by simp [r3]) (by simp [r3]))) fun s' w' h => ?_
  cases a.saveEvery <;> rfl

/-- Values the generators return in the state `w`, for the draws no call asks for. -/
noncomputable def baseline (gen : Gen d Φ W) (w : W) : Rnd d Φ where
  prior n := (gen.prior n w).1
  warm _ _ := (gen.ints 1 1 w).1.getD 0 0
  mult _ _ := (gen.uniform 1 w).1.getD 0 0
  syst _ := (gen.uniform 1 w).1.getD 0 0
  mcmc _ _ _ := ⟨(gen.gamma (fin 0) (fin 0) w).1, (gen.randn w).1, fin ((gen.uniform 1 w).1.getD 0 0)⟩
  flowFit _ φ us ws := (gen.flowFit φ us ws w).map Prod.fst
  geoFit _ us ws := (gen.geoFit us ws w).map Prod.fst
  flowSample _ φ n := (gen.flowSample φ n w).1
  boot _ _ _ := (gen.ints 1 1 w).1.getD 0 0

theorem getD_zero_mem {α : Type} {l : List α} (h : l.length = 1) (v : α) : l.getD 0 v ∈ l := by
  obtain ⟨x, rfl⟩ := List.length_eq_one_iff.mp h
  simp

theorem Spec.Drawn.returned (hg : Generates gen low high) {w : W} {r : Rnd d Φ} (h : Drawn gen (baseline gen w) r) : Returned gen r := by
  have hu : ∀ v, v = (gen.uniform 1 w).1.getD 0 0 → v ∈ (gen.uniform 1 w).1 := fun v hv => hv ▸ getD_zero_mem (hg.uniform 1 w).1 0
  have hn : ∀ v, v = (gen.ints 1 1 w).1.getD 0 0 → v ∈ (gen.ints 1 1 w).1 := fun v hv => hv ▸ getD_zero_mem (hg.ints 1 1 w).1 0
  exact {
    prior := fun n => (h.prior n).elim (fun k => ⟨w, k⟩) id
    warm := fun t k => (h.warm t k).elim (fun k => ⟨1, 1, w, hn _ k⟩) id
    mult := fun t k => (h.mult t k).elim (fun k => ⟨1, w, hu _ k⟩) id
    syst := fun t => (h.syst t).elim (fun k => ⟨1, w, hu _ k⟩) id
    gamma := fun t i k => (h.gamma t i k).elim (fun k => ⟨_, _, w, k⟩) id
    z := fun t i k => (h.z t i k).elim (fun k => ⟨w, k⟩) id
    rand := fun t i k => (h.rand t i k).elim (fun k => ⟨1, w, _, hu _ rfl, k⟩) id
    flowFit := fun t φ us ws => (h.flowFit t φ us ws).elim (fun k => ⟨w, k⟩) id
    geoFit := fun t us ws => (h.geoFit t us ws).elim (fun k => ⟨w, k⟩) id
    flowSample := fun t φ n => (h.flowSample t φ n).elim (fun k => ⟨w, k⟩) id
    boot := fun t i k => (h.boot t i k).elim (fun k => ⟨1, 1, w, hn _ k⟩) id }

theorem Spec.Returned.draws (hg : Generates gen low high) {r : Rnd d Φ} (h : Returned gen r) : Draws low high r where
  prior n := by
    obtain ⟨w, hw⟩ := h.prior n
    rw [hw]
    exact hg.prior n w
  mcmc t i k := by
    obtain ⟨n, w, u, hu, hr⟩ := h.rand t i k
    exact ⟨u, hr, (hg.uniform n w).2 u hu⟩

end Poco
