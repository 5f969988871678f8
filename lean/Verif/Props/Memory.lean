import Verif.Lemmas.MemoryRun
import Verif.Props.Total
import Verif.Props.Demo

/-! # C112: what the user's likelihood can do to the stored arrays -/

namespace Poco
open F Spec

variable {d : ℕ} {B Φ : Type}

section
variable {e : SamplerEnv d B Φ} {m : Manners d} {rnd : Rnd d Φ}

theorem Spec.Polite.after {L : LikeEnv d B} {m : Manners d} (h : Polite L m) (xs : List (Pt d)) : afterCall m L xs = xs := by
  unfold Polite at h
  unfold afterCall
  split_ifs at h ⊢ with h1 h2
  · exact h.1 xs
  · rfl
  · rcases h with h | h
    · exact absurd h h2
    · rw [show m.row = id from funext h, List.map_id]

theorem Spec.Polite.none {L : LikeEnv d B} {m : Manners d} (h : Polite L m) : (if L.vectorize then m.buffer else none) = none := by
  unfold Polite at h
  split_ifs at h ⊢ with h1
  · exact h.2
  · rfl

theorem Spec.NewArrays.length {L : LikeEnv d B} {m : Manners d} (h : NewArrays L m) (xs : List (Pt d)) :
    (afterCall m L xs).length = xs.length := by
  unfold afterCall
  split_ifs with h1
  · exact (h h1).1 xs
  · rfl
  · exact List.length_map _

theorem Spec.NewArrays.none {L : LikeEnv d B} {m : Manners d} (h : NewArrays L m) : (if L.vectorize then m.buffer else none) = none := by
  split_ifs with h1
  · exact (h h1).2
  · rfl

theorem settled_new (h : Heap d B) {hb : Bool} {s : Sampler d B Φ} (_ : Fresh e hb s) : Settled (asNew h s) :=
  ⟨⟨fun _ hh => by (cases hh), fun _ hp => by (cases hp), fun _ hit => by (cases hit), fun _ hc => by (cases hc)⟩, fun _ => rfl⟩

theorem see_new (h : Heap d B) {hb : Bool} {s : Sampler d B Φ} (hs : Fresh e hb s) : (asNew h s).see = s := by
  have h1 := hs.priorSamples
  have h2 := hs.particles
  have h3 := hs.cur
  cases s
  simp only at h1 h2 h3
  subst h1 h2 h3
  rfl

theorem runs_sim (hp : Polite e.like m) (fuel n : ℕ) :
    ∀ (cs : List (RunArgs × Rnd d Φ)) (r : RefSampler d B Φ), (∀ c ∈ cs, c.1.saveEvery ≠ some 0) → Settled r →
      Sim (fun r' s' => r'.see = s' ∧ Settled r') (runsInMemory e m fuel n cs r) (runs e fuel n cs r.see) := by
  intro cs
  induction cs with
  | nil => intro r _ hr; exact ⟨rfl, hr⟩
  | cons c cs ih =>
    intro r hc hr
    unfold runsInMemory runs
    refine Sim.bind (runR_sim e m hp.after (fun xs => by rw [hp.after]) hp.none c.2 fuel n c.1 (hc c (by simp)) r hr) ?_
    rintro r' s' ⟨rfl, hr'⟩
    exact ih r' (fun c' hc' => hc c' (by simp [hc'])) hr'

theorem Sim.map_eq {α β : Type} {f : α → β} {p : Except PyErr α} {q : Except PyErr β} {R : α → β → Prop} (h : Sim R p q)
    (hR : ∀ a b, R a b → f a = b) : p.map f = q := by
  cases p <;> cases q
  · exact congrArg _ h
  · exact h.elim
  · exact h.elim
  · exact congrArg _ (hR _ _ h)

/-- **C112, for likelihoods that leave no traces.** Take any number of runs on a new sampler.  If the likelihood does not
write to its argument and returns a new array from every call, then the runs in memory, where the store holds references and
slices are views, show exactly what the runs on values compute: the same exception, or the same sampler.  Missing from the
full claim: likelihoods that write to their argument or return the same array again; for them it is false
(`C112_overwritten`, `C112_reused_array`). -/
theorem C112_polite_partial {hb : Bool} {s : Sampler d B Φ} (hs : Fresh e hb s) (h : Heap d B) (hp : Polite e.like m)
    (fuel n : ℕ) (cs : List (RunArgs × Rnd d Φ)) (hc : ∀ c ∈ cs, c.1.saveEvery ≠ some 0) :
    (runsInMemory e m fuel n cs (asNew h s)).map RefSampler.see = runs e fuel n cs s := by
  have := (runs_sim (m := m) hp fuel n cs (asNew h s) hc (settled_new h hs)).map_eq (f := RefSampler.see) fun _ _ hh => hh.1
  rw [this, see_new h hs]

/-- **C112, after the warm-up.** In the main loop nothing the likelihood does to its argument, and no reuse of the array it
returns, makes a difference: whenever the references of the sampler show existing arrays, none of them the one the likelihood
returns from, the loop in memory shows what the loop on values computes. -/
theorem C112_main_loop (fuel : ℕ) (sv : Option ℕ) (hsv : sv ≠ some 0) (t0 n : ℕ) (r : RefSampler d B Φ)
    (hr : Held (reused e.like m) r) :
    (smcLoopR e m rnd fuel n r).map RefSampler.see = (smcLoop e rnd fuel sv t0 n r.see).2 :=
  (smcLoopR_sim e m rnd fuel sv hsv t0 _ rfl n r hr).map_eq fun _ _ hh => hh.1

/-- **C112, what is stored stays (warm-up).** A likelihood that writes to the rows it is given, in any way, but returns new
arrays: an iteration stored in the warm-up still shows the same after any further batches. -/
theorem C112_stored_stay {hb : Bool} {s : Sampler d B Φ} (hs : Fresh e hb s) (h : Heap d B) (hm : NewArrays e.like m)
    (a : RunArgs) (j k : ℕ) {r0 r1 r2 : RefSampler d B Φ} (h0 : runInitR e rnd a (asNew h s) = .ok r0)
    (h1 : warmupLoopR e m rnd j 0 r0 = .ok r1) (h2 : warmupLoopR e m rnd k j r1 = .ok r2) : shown r1 <+: shown r2 := by
  obtain ⟨s0, k1, rfl, k2, k3, k4, k5⟩ := (runInitR_sim e rnd a _ (settled_new h hs)).ok_left h0
  have hw : r0.rest.warmup = true := by
    unfold runInitR at h0
    simp only [asNew] at h0
    obtain ⟨sc, -, h0⟩ := bind_ok h0
    simp only [pure, Except.pure, Except.ok.injEq] at h0
    rw [← h0]
    exact hs.warmup
  obtain ⟨p1, -⟩ := warmupLoopR_keeps e m hm.length hm.none rnd j 0 r0 r1 (by rw [Nat.zero_mul]; exact k3 hw) h1
  rw [Nat.zero_add] at p1
  obtain ⟨-, l, hl⟩ := warmupLoopR_keeps e m hm.length hm.none rnd k j r1 r2 p1 h2
  exact ⟨l, hl.symm⟩

/-- **C112, what is stored stays (main loop).** Whatever the likelihood does: an iteration that was stored, none of whose arrays
is the one the likelihood returns from, still shows the same after any number of turns of the main loop. -/
theorem C112_stored_stay_main (fuel n : ℕ) (r r' : RefSampler d B Φ) (hr : Held (reused e.like m) r)
    (h : smcLoopR e m rnd fuel n r = .ok r') : shown r <+: shown r' := by
  obtain ⟨s', -, -, hk⟩ := (smcLoopR_sim e m rnd fuel none (by simp) 0 _ rfl n r hr).ok_left h
  obtain ⟨l, hl⟩ := hk.hist
  refine ⟨l.map (RefIter.see r'.heap), ?_⟩
  unfold shown
  rw [hl, List.map_append]
  congr 1
  exact List.map_congr_left fun it hit => ((hr.hist it hit).see hk.ext).symm

/-! ### likelihoods that do leave traces -/

theorem infDonors_none {logl : List F} (h : ∀ l ∈ logl, F.isinf l = false) (draw : ℕ → ℕ) : infDonors logl draw = .ok ([], []) := by
  unfold infDonors
  have : maskSelect (logl.map F.isinf) (List.range logl.length) = [] := by
    have h1 : logl.map F.isinf = List.replicate logl.length false := by
      rw [List.eq_replicate_iff]
      refine ⟨List.length_map _, fun b hb => ?_⟩
      obtain ⟨l, hl, rfl⟩ := List.mem_map.1 hb
      exact h l hl
    rw [h1]
    generalize List.range logl.length = r
    generalize logl.length = n
    induction n generalizing r with
    | zero => cases r <;> rfl
    | succ n ih =>
      cases r with
      | nil => rfl
      | cons a r =>
        rw [List.replicate_succ]
        simpa [maskSelect] using ih r
  simp only [this, if_true]

theorem warm_step {ll lp : Pt d → F} {bb : Pt d → List B} {hb : Bool} (hu : UserFns e ll lp bb hb)
    (hfin : ∀ x, F.isinf (ll x) = false) (hm : ∀ xs, (afterCall m e.like xs).length = xs.length) {r : RefSampler d B Φ} {i : ℕ}
    {b : Option ℕ} (hbuf : b = reused e.like m) (hB : HasBuffer b r.heap) {p : View} (hp : r.prior = some p) (hpw : PriorWhole r.heap p)
    (hok : r.rest.scaler.Ok) {xs : List (Fin d → ℝ)} (hxs : r.heap.read .pts p = xs.map pt)
    (hin : ∀ x ∈ xs, StrictlyInside r.rest.scaler.low r.rest.scaler.high x)
    (hne : (xs.drop (i * e.nActive)).take e.nActive ≠ []) :
    ∃ r' s' it, warmupStepR e m rnd r i = .ok r' ∧ Warmed e.like b i e.nActive r r' s' it ∧
      (it.see r'.heap).x = afterCall m e.like (((xs.map pt).drop (i * e.nActive)).take e.nActive) ∧
      (it.see r'.heap).logl = (((xs.map pt).drop (i * e.nActive)).take e.nActive).map ll ∧
      (it.see r'.heap).logp = (((xs.map pt).drop (i * e.nActive)).take e.nActive).map lp ∧
      r.rest.scaler.forward (((xs.map pt).drop (i * e.nActive)).take e.nActive) = .ok (it.see r'.heap).u ∧
      s'.priorSamples = some (writeSlice (xs.map pt) (i * e.nActive)
        (afterCall m e.like (((xs.map pt).drop (i * e.nActive)).take e.nActive))) ∧
      r'.rest.scaler = r.rest.scaler ∧ it.logl.len = (((xs.map pt).drop (i * e.nActive)).take e.nActive).length := by
  have hps : r.see.priorSamples = some (xs.map pt) := by
    show r.prior.map (r.heap.read .pts) = _
    rw [hp, Option.map_some, hxs]
  obtain ⟨b0, -, k1, -, k3, -⟩ := warmupBatch_ok hu (s := r.see) hok hps hin i hne
  have k4 := k1
  unfold warmupBatch at k4
  rw [hps] at k4
  simp only [orErr, okb] at k4
  obtain ⟨us, g1, k4⟩ := bind_ok k4
  obtain ⟨inv, g2, k4⟩ := bind_ok k4
  obtain ⟨⟨logl, blobs, hb'⟩, g3, k4⟩ := bind_ok k4
  simp only [pure, Except.pure, Except.ok.injEq, Prod.mk.injEq] at k4
  obtain ⟨k4, -⟩ := k4
  have hne' : ((xs.map pt).drop (i * e.nActive)).take e.nActive ≠ [] := by
    intro hh
    rw [← List.map_drop, ← List.map_take] at hh
    exact hne (List.map_eq_nil_iff.1 hh)
  have g4 := hu.like _ hne'
  rw [g3] at g4
  simp only [Except.ok.injEq, Prod.mk.injEq] at g4
  obtain ⟨g4, -, -⟩ := g4
  have hd : infDonors b0.logl (rnd.warm r.see.t) = .ok ([], []) := by
    refine infDonors_none (fun l hl => ?_) _
    rw [← k4] at hl
    simp only at hl
    rw [g4] at hl
    obtain ⟨x, -, rfl⟩ := List.mem_map.1 hl
    exact hfin x
  have hrep : replaceInf { b0 with x := afterCall m e.like b0.x } (r.see.haveBlobs || hb) (rnd.warm r.see.t)
      = .ok { b0 with x := afterCall m e.like b0.x } := by
    unfold replaceInf
    simp only [hd, okb, if_true]
    rfl
  have hs := warmupStepR_sim e m hm rnd r i b hbuf hB (fun q hq => by
    rw [hp] at hq
    cases hq
    exact hpw)
  unfold warmupWith at hs
  rw [k1] at hs
  simp only [okb, hrep, pure, Except.pure] at hs
  cases hE : warmupStepR e m rnd r i with
  | error y => rw [hE] at hs; exact hs.elim
  | ok r' =>
    rw [hE] at hs
    obtain ⟨it, hw⟩ := hs
    have hsee := hw.see
    simp only [Option.some.injEq, Cur.mk.injEq, and_true] at hsee
    refine ⟨r', _, it, rfl, hw, ?_, ?_, ?_, ?_, ?_, ?_, ?_⟩
    · rw [← hsee, ← k4]; rfl
    · rw [← hsee, ← k4]
      exact g4
    · rw [← hsee, ← k4]
      exact hu.prior _
    · rw [← hsee, ← k4]
      exact g1
    · simp only [hps, Option.map_some]
      rw [← k4]
    · exact (congrArg Sampler.scaler hw.rest).symm
    · obtain ⟨p', bl, hb'', l', q1, q2, q3⟩ := hw.logl_len
      rw [hp] at q1
      cases q1
      rw [hxs, g3] at q2
      simp only [Except.ok.injEq, Prod.mk.injEq] at q2
      rw [q3, ← q2.1, g4, List.length_map]

theorem init_new {ll lp : Pt d → F} {bb : Pt d → List B} {hb : Bool} (hc : Configured e) {s : Sampler d B Φ} (hs : Fresh e hb s)
    (hd : Draws s.scaler.low s.scaler.high rnd) (h : Heap d B) (a : RunArgs) :
    ∃ r0 p, ∃ xs : List (Fin d → ℝ), runInitR e rnd a (asNew h s) = .ok r0 ∧ r0.prior = some p ∧ PriorWhole r0.heap p ∧
      r0.rest.scaler.Ok ∧ r0.heap.read .pts p = xs.map pt ∧ rnd.prior e.nPrior = xs.map pt ∧ xs.length = e.nPrior ∧
      (∀ x ∈ xs, StrictlyInside r0.rest.scaler.low r0.rest.scaler.high x) ∧ r0.hist = [] ∧ h.next ≤ r0.heap.next := by
  have hi := Inv.fresh (ll := ll) (lp := lp) (bb := bb) hs
  obtain ⟨s1, i1, i2, i3⟩ := hi.runInit_total hc hd a
  obtain ⟨j1, j2, j3⟩ := hi.init hc hd i1
  have hsim := runInitR_sim e rnd a _ (settled_new h hs)
  rw [see_new h hs, i1] at hsim
  cases hE : runInitR e rnd a (asNew h s) with
  | error y => rw [hE] at hsim; exact hsim.elim
  | ok r0 =>
    rw [hE] at hsim
    obtain ⟨g1, g2, g3, g4, g5⟩ := hsim
    have hw : r0.rest.warmup = true := by
      have : r0.see.warmup = s1.warmup := by rw [g1]
      exact this.trans (i3.trans hs.warmup)
    rw [hs.priorSamples, Option.getD_none] at i2
    have hsc : r0.rest.scaler = s1.scaler := by rw [← g1]; rfl
    obtain ⟨x1, xs, x2, x3, x4⟩ := j1.prior _ i2
    have hps : r0.prior.map (r0.heap.read .pts) = some (rnd.prior e.nPrior) := by
      have : r0.see.priorSamples = s1.priorSamples := by rw [g1]
      exact this.trans i2
    cases hp : r0.prior with
    | none => rw [hp] at hps; cases hps
    | some p =>
      rw [hp] at hps
      simp only [Option.map_some, Option.some.injEq] at hps
      exact ⟨r0, p, xs, rfl, hp, (g3 hw).whole p hp, by rw [hsc]; exact x1, hps.trans x2, x2, x3, by rw [hsc]; exact x4, g4, g5.1⟩

/-- **C112 fails for a likelihood that writes to its argument.** Serial evaluation (no pool, not vectorised), any finite
likelihood `ll` and prior `lp`; after a call the row it was given contains `m.row` of what it contained.  After the first batch
of the warm-up the store shows the overwritten positions, beside the log-likelihoods, log-priors and transformed coordinates of the
original ones. -/
theorem C112_overwritten {ll lp : Pt d → F} {bb : Pt d → List B} {hb : Bool} (hu : UserFns e ll lp bb hb) (hc : Configured e)
    {s : Sampler d B Φ} (hs : Fresh e hb s) (hd : Draws s.scaler.low s.scaler.high rnd) (hfin : ∀ x, F.isinf (ll x) = false)
    (hv : e.like.vectorize = false) (hpool : e.like.pool = none) (h : Heap d B) (a : RunArgs) :
    ∃ r0 r1 it, runInitR e rnd a (asNew h s) = .ok r0 ∧ warmupLoopR e m rnd 1 0 r0 = .ok r1 ∧ shown r1 = [it] ∧
      it.x = ((rnd.prior e.nPrior).take e.nActive).map m.row ∧
      it.logl = ((rnd.prior e.nPrior).take e.nActive).map ll ∧
      it.logp = ((rnd.prior e.nPrior).take e.nActive).map lp ∧
      r0.rest.scaler.forward ((rnd.prior e.nPrior).take e.nActive) = .ok it.u := by
  obtain ⟨r0, p, xs, h0, h1, h2, h3, h4, h5, h6, h7, h8, h9⟩ := init_new (ll := ll) (lp := lp) (bb := bb) hc hs hd h a
  have hm : ∀ ys, (afterCall m e.like ys).length = ys.length := by
    intro ys
    unfold afterCall
    simp [hv, hpool]
  have haf : ∀ ys, afterCall m e.like ys = ys.map m.row := by
    intro ys
    unfold afterCall
    simp [hv, hpool]
  have hne : (xs.drop (0 * e.nActive)).take e.nActive ≠ [] := by
    rw [Nat.zero_mul, List.drop_zero]
    intro hh
    have := congrArg List.length hh
    rw [List.length_take, h6, List.length_nil] at this
    have h1 := hc.1
    have h2 := hc.2.1
    omega
  obtain ⟨r1, s1, it, w1, w2, w3, w4, w5, w6, -⟩ := warm_step (rnd := rnd) (m := m) hu hfin hm (b := none) (by simp [reused, hv])
    (fun _ hh => by cases hh) h1 h2 h3 h4 h7 (i := 0) hne
  rw [Nat.zero_mul, List.drop_zero] at w3 w4 w5 w6
  refine ⟨r0, r1, it.see r1.heap, h0, ?_, ?_, ?_, ?_, ?_, ?_⟩
  · unfold warmupLoopR
    rw [w1]
    rfl
  · unfold shown
    rw [w2.hist, h8]
    rfl
  · rw [w3, haf, h5]
  · rw [w4, h5]
  · rw [w5, h5]
  · rw [h5]; exact w6

/-- **C112 fails for a vectorised likelihood that returns the same array from every call.** After two batches of the warm-up
the store shows, for the first batch, the log-likelihoods of the second. -/
theorem C112_reused_array {ll lp : Pt d → F} {bb : Pt d → List B} {hb : Bool} (hu : UserFns e ll lp bb hb) (hc : Configured e)
    {s : Sampler d B Φ} (hs : Fresh e hb s) (hd : Draws s.scaler.low s.scaler.high rnd) (hfin : ∀ x, F.isinf (ll x) = false)
    (hv : e.like.vectorize = true) (hm : ∀ xs, m.array xs = xs) {b : ℕ} (hbuf : m.buffer = some b) (h : Heap d B)
    (hb' : b < h.next) (h2n : 2 * e.nActive ≤ e.nPrior) (a : RunArgs) :
    ∃ r0 r2 it1 it2, runInitR e rnd a (asNew h s) = .ok r0 ∧ warmupLoopR e m rnd 2 0 r0 = .ok r2 ∧ shown r2 = [it1, it2] ∧
      it1.x = (rnd.prior e.nPrior).take e.nActive ∧
      it1.logl = (((rnd.prior e.nPrior).drop e.nActive).take e.nActive).map ll ∧
      it2.x = ((rnd.prior e.nPrior).drop e.nActive).take e.nActive ∧
      it2.logl = (((rnd.prior e.nPrior).drop e.nActive).take e.nActive).map ll := by
  obtain ⟨r0, p, xs, h0, h1, h2, h3, h4, h5, h6, h7, h8, h9⟩ := init_new (ll := ll) (lp := lp) (bb := bb) hc hs hd h a
  have haf : ∀ ys, afterCall m e.like ys = ys := by
    intro ys
    unfold afterCall
    rw [if_pos hv, hm]
  have hre : some b = reused e.like m := by unfold reused; rw [if_pos hv, hbuf]
  have hpos := hc.1
  have hne : ∀ i, i < 2 → (xs.drop (i * e.nActive)).take e.nActive ≠ [] := by
    intro i hi hh
    have := congrArg List.length hh
    rw [List.length_take, List.length_drop, h6, List.length_nil] at this
    have h3 : i * e.nActive ≤ 1 * e.nActive := Nat.mul_le_mul_right _ (by omega)
    omega
  obtain ⟨r1, s1, it1, w1, w2, w3, w4, w5, w6, w7, w8, w9⟩ := warm_step (rnd := rnd) (m := m) hu hfin (fun ys => by rw [haf]) hre
    (fun _ hh => by cases hh; omega) h1 h2 h3 h4 h7 (i := 0) (hne 0 (by omega))
  rw [Nat.zero_mul, List.drop_zero] at w3 w4 w9
  rw [haf] at w3 w7
  rw [Nat.zero_mul, List.drop_zero] at w7
  have hws : writeSlice (xs.map pt) 0 ((xs.map pt).take e.nActive) = xs.map pt := by
    have := writeSlice_selfR (xs.map pt) 0 e.nActive
    rwa [List.drop_zero] at this
  rw [hws] at w7
  have hp1 : r1.prior = some p := w2.prior.trans h1
  have hr1 : r1.heap.read .pts p = xs.map pt := by
    have := w2.samples
    rw [hp1, w7] at this
    exact Option.some.inj this
  have hnx : h.next ≤ r1.heap.next := h9.trans w2.next
  obtain ⟨r2, s2, it2, v1, v2, v3, v4, v5, v6, v7, v8, v9⟩ := warm_step (rnd := rnd) (m := m) hu hfin (fun ys => by rw [haf]) hre
    (fun _ hh => by cases hh; omega) hp1 (w2.whole p hp1) (by rw [w8]; exact h3) hr1 (by rw [w8]; exact h7) (i := 1)
    (hne 1 (by omega))
  rw [haf] at v3
  rw [Nat.one_mul] at v3 v4 v9
  have hx1 : r2.heap.read .pts it1.x = r1.heap.read .pts it1.x :=
    v2.frame .pts it1.x w2.alive.2.1 fun _ q hq _ => w2.x_pos q (w2.prior ▸ hq)
  have hview : it1.logl = it2.logl := by
    have c1 : it1.logl.base = b := by
      rcases w2.logl with hh | ⟨hh, -⟩
      · exact (Option.some.inj hh).symm
      · cases hh
    have c2 : it2.logl.base = b := by
      rcases v2.logl with hh | ⟨hh, -⟩
      · exact (Option.some.inj hh).symm
      · cases hh
    have c3 := w2.logl_start
    have c4 := v2.logl_start
    have c5 : it1.logl.len = it2.logl.len := by
      rw [w9, v9]
      simp only [List.length_take, List.length_drop, List.length_map, h6]
      omega
    cases hh1 : it1.logl
    cases hh2 : it2.logl
    rw [hh1] at c1 c3 c5
    rw [hh2] at c2 c4 c5
    simp only at c1 c2 c3 c4 c5
    rw [c1, c2, c3, c4, c5]
  refine ⟨r0, r2, it1.see r2.heap, it2.see r2.heap, h0, ?_, ?_, ?_, ?_, ?_, ?_⟩
  · unfold warmupLoopR
    rw [w1]
    simp only [okb]
    unfold warmupLoopR
    rw [v1]
    rfl
  · unfold shown
    rw [v2.hist, w2.hist, h8]
    rfl
  · show r2.heap.read .pts it1.x = _
    rw [hx1, h5]
    exact w3
  · show r2.heap.read .nums it1.logl = _
    rw [hview, h5]
    exact v4
  · rw [v3, h5]
  · rw [v4, h5]

end

/-! ### the hypotheses can be met -/

namespace Demo

/-- A likelihood that depends on the position: the first coordinate. -/
noncomputable def first (x : Pt 2) : F := if F.isinf (x 0) then fin 0 else x 0

/-- The same for one point and vectorised. -/
noncomputable def slope (v : Bool) : LikeEnv 2 Unit where
  single := fun x => .ok (.scalar (first x))
  vector := fun xs => .ok (xs.map first)
  vectorize := v
  pool := none

/-- The demo sampler with that likelihood. -/
noncomputable def slopeEnv (v : Bool) : SamplerEnv 2 Unit Unit := { env false with like := slope v }

theorem slope_user (v : Bool) : UserFns (slopeEnv v) first (fun _ => fin 0) (fun _ => [()]) false := by
  have hl : ∀ xs, logLike (slope v) xs = .ok (xs.map first, none, false) := by
    intro xs
    have := C51_vectorize (slope v) first xs (fun _ _ => .inl rfl) rfl
    cases v
    · exact this.2
    · exact this.1
  exact ⟨fun xs => rfl, fun xs _ => hl xs, hl []⟩

theorem slope_fresh (v : Bool) : Fresh (slopeEnv v) false start := by
  constructor <;> try rfl
  · intro i; exact ⟨by simp [start, Scaler.init], by simp [start, Scaler.init], by simp [start, Scaler.init]⟩
  · intro h; cases h

theorem slope_configured (v : Bool) : Configured (slopeEnv v) := ⟨by simp [slopeEnv, env], by simp [slopeEnv, env], by simp [slopeEnv, env]⟩

theorem first_finite (x : Pt 2) : F.isinf (first x) = false := by
  unfold first
  split_ifs with h
  · rfl
  · simpa using h

theorem first_pt (y : Fin 2 → ℝ) : first (pt y) = fin (y 0) := by
  unfold first
  rw [if_neg (by simp [pt, F.isinf])]
  rfl

/-- A memory with one array, of two numbers, in it. -/
def memory : Heap 2 Unit := (Heap.new ⟨fun _ _ => [], 0⟩ .nums [fin 0, fin 0]).1

/-- A likelihood that standardises its argument in place: it adds one to every coordinate. -/
noncomputable def standardise : Manners 2 := ⟨fun x i => x i + fin 1, fun xs => xs, none⟩

/-- A vectorised likelihood that returns the array of `memory` from every call. -/
def sameArray : Manners 2 := ⟨fun x => x, fun xs => xs, some 0⟩

/-- **C112 is false as stated (1).** After the first batch of the warm-up, the stored log-likelihoods are not those of the
stored positions. -/
theorem C112_not_always : ∃ r0 r1 it, runInitR (slopeEnv false) rnd ⟨6, 0, none⟩ (asNew memory start) = .ok r0 ∧
    warmupLoopR (slopeEnv false) standardise rnd 1 0 r0 = .ok r1 ∧ shown r1 = [it] ∧ it.logl ≠ it.x.map first := by
  obtain ⟨r0, r1, it, h1, h2, h3, h4, h5, -⟩ := C112_overwritten (m := standardise) (slope_user false) (slope_configured false)
    (slope_fresh false) draws first_finite rfl rfl memory ⟨6, 0, none⟩
  refine ⟨r0, r1, it, h1, h2, h3, fun hh => ?_⟩
  rw [h4, h5] at hh
  have hp : (rnd.prior (slopeEnv false).nPrior).take (slopeEnv false).nActive = [pt fun _ => 0, pt fun _ => 1] := by
    simp [rnd, slopeEnv, env, List.range_succ]
  rw [hp] at hh
  have h0 := congrArg (fun l => l[0]?) hh
  have hm : standardise.row (pt fun _ => 0) = pt fun _ => 1 := by
    funext i
    show fin 0 + fin 1 = fin 1
    simp
  simp [first_pt, hm] at h0

/-- **C112 is false as stated (2).** The same with the reused array, after the second batch. -/
theorem C112_not_always_reused : ∃ r0 r2 it1 it2, runInitR (slopeEnv true) rnd ⟨6, 0, none⟩ (asNew memory start) = .ok r0 ∧
    warmupLoopR (slopeEnv true) sameArray rnd 2 0 r0 = .ok r2 ∧ shown r2 = [it1, it2] ∧ it1.logl ≠ it1.x.map first := by
  obtain ⟨r0, r2, it1, it2, h1, h2, h3, h4, h5, -⟩ := C112_reused_array (m := sameArray) (slope_user true) (slope_configured true)
    (slope_fresh true) draws first_finite rfl (fun _ => rfl) rfl memory (by simp [memory, Heap.new]) (by simp [slopeEnv, env]) ⟨6, 0, none⟩
  refine ⟨r0, r2, it1, it2, h1, h2, h3, fun hh => ?_⟩
  rw [h4, h5] at hh
  have hp : (rnd.prior (slopeEnv true).nPrior).take (slopeEnv true).nActive = [pt fun _ => 0, pt fun _ => 1] := by
    simp [rnd, slopeEnv, env, List.range_succ]
  have hq : ((rnd.prior (slopeEnv true).nPrior).drop (slopeEnv true).nActive).take (slopeEnv true).nActive =
      [pt fun _ => 2, pt fun _ => 3] := by
    simp [rnd, slopeEnv, env, List.range_succ]
  rw [hp, hq] at hh
  have h0 := congrArg (fun l => l[0]?) hh
  simp [first_pt] at h0

/-- The hypotheses of `C112_polite_partial` are met by a run that returns with three iterations stored. -/
theorem polite_run (p : Bool) : ∃ r, runsInMemory (env p) ⟨fun x => x, fun _ => [], none⟩ 0 1 [(args 0, rnd)] (asNew memory start) = .ok r ∧
    (shown r).length = 3 ∧ Held none r := by
  have hp : Polite (env p).like (⟨fun x => x, fun _ => [], none⟩ : Manners 2) := by
    unfold Polite
    rw [if_neg (by simp [env, like])]
    exact .inr fun _ => rfl
  obtain ⟨s', h1, -, h3⟩ := session p 0
  have hr : runs (env p) 0 1 [(args 0, rnd)] start = .ok s' := by
    unfold runs
    rw [h1]
    rfl
  have hs := runs_sim (m := ⟨fun x => x, fun _ => [], none⟩) hp 0 1 [(args 0, rnd)] (asNew memory start)
    (fun c hc => by rw [List.mem_singleton.1 hc]; simp [args]) (settled_new memory (fresh p))
  rw [see_new memory (fresh p), hr] at hs
  cases hE : runsInMemory (env p) ⟨fun x => x, fun _ => [], none⟩ 0 1 [(args 0, rnd)] (asNew memory start) with
  | error y => rw [hE] at hs; exact hs.elim
  | ok r =>
    rw [hE] at hs
    obtain ⟨rfl, hs⟩ := hs
    refine ⟨r, rfl, ?_, hs.1⟩
    simpa [shown, RefSampler.see, columnsOf] using h3

example (p : Bool) : ∃ s', (runsInMemory (env p) ⟨fun x => x, fun _ => [], none⟩ 0 1 [(args 0, rnd)] (asNew memory start)).map RefSampler.see
    = .ok s' ∧ s'.particles.past.x.length = 3 := by
  obtain ⟨r, h1, h2, -⟩ := polite_run p
  exact ⟨r.see, by rw [h1]; rfl, by simpa [shown, RefSampler.see, columnsOf] using h2⟩

/-- `C112_main_loop`, `C112_stored_stay_main`: after that run a likelihood that overwrites its argument does no harm. -/
example (p : Bool) : ∃ r : RefSampler 2 Unit Unit, (shown r).length = 3 ∧ ∀ n,
    (smcLoopR (env p) standardise rnd 0 n r).map RefSampler.see = (smcLoop (env p) rnd 0 none 0 n r.see).2 ∧
    ∀ r', smcLoopR (env p) standardise rnd 0 n r = .ok r' → shown r <+: shown r' := by
  obtain ⟨r, -, h1, h2⟩ := polite_run p
  exact ⟨r, h1, fun n => ⟨C112_main_loop 0 none (by simp) 0 n r h2, fun r' h =>
    C112_stored_stay_main (e := env p) (m := standardise) (rnd := rnd) 0 n r r' h2 h⟩⟩

/-- The same for one that returns the same array from every call and was not used in the warm-up (as after loading a state
file): `r` has the history of the run above, and the array is a new one. -/
example (p : Bool) : ∃ (r : RefSampler 2 Unit Unit) (b : ℕ), (shown r).length = 3 ∧
    Held (reused (slopeEnv true).like ⟨fun x => x, fun xs => xs, some b⟩) r := by
  obtain ⟨r, -, h1, h2⟩ := polite_run p
  have hlive : ∀ k v, Live none r.heap k v → Live (some r.heap.next) (r.heap.new .nums [fin 0, fin 0]).1 k v := by
    rintro k v ⟨g1, -⟩
    refine ⟨Nat.lt_succ_of_lt g1, fun _ hh => ?_⟩
    have := Option.some.inj hh
    omega
  have hal : ∀ it : RefIter, it.Alive none r.heap → it.Alive (some r.heap.next) (r.heap.new .nums [fin 0, fin 0]).1 := by
    rintro it ⟨g1, g2, g3, g4, g5, g6, g7⟩
    exact ⟨hlive _ _ g1, hlive _ _ g2, hlive _ _ g3, hlive _ _ g4, hlive _ _ g5, hlive _ _ g6, fun v hv => hlive _ _ (g7 v hv)⟩
  refine ⟨{ r with heap := (r.heap.new .nums [fin 0, fin 0]).1 }, r.heap.next, by simpa [shown] using h1, ?_⟩
  exact ⟨fun a ha => by cases ha; exact Nat.lt_succ_self _, fun q hq => hlive _ _ (h2.prior q hq), fun it hit => hal it (h2.hist it hit),
    fun it hit => hal it (h2.cur it hit)⟩

/-- `C112_stored_stay`: two batches, one after the other. -/
example : ∃ r0 r1 r2, NewArrays (slopeEnv true).like ⟨fun x => x, fun xs => xs, none⟩ ∧
    runInitR (slopeEnv true) rnd ⟨6, 0, none⟩ (asNew memory start) = .ok r0 ∧
    warmupLoopR (slopeEnv true) ⟨fun x => x, fun xs => xs, none⟩ rnd 1 0 r0 = .ok r1 ∧
    warmupLoopR (slopeEnv true) ⟨fun x => x, fun xs => xs, none⟩ rnd 1 1 r1 = .ok r2 ∧ (shown r1).length = 1 ∧ (shown r2).length = 2 := by
  obtain ⟨r0, p, xs, h0, h1, h2, h3, h4, h5, h6, h7, h8, h9⟩ := init_new (ll := first) (lp := fun _ => fin 0) (bb := fun _ => [()])
    (slope_configured true) (slope_fresh true) draws memory ⟨6, 0, none⟩
  have h6' : xs.length = 4 := h6
  have hne : ∀ i, i < 2 → (xs.drop (i * (slopeEnv true).nActive)).take (slopeEnv true).nActive ≠ [] := by
    intro i hi hh
    have := congrArg List.length hh
    rw [List.length_take, List.length_drop, h6', List.length_nil] at this
    simp only [slopeEnv, env] at this
    omega
  obtain ⟨r1, s1, it1, w1, w2, w3, w4, w5, w6, w7, w8, w9⟩ := warm_step (rnd := rnd) (m := ⟨fun x => x, fun xs => xs, none⟩)
    (slope_user true) first_finite (fun ys => rfl) (b := none) rfl (fun _ hh => by cases hh) h1 h2 h3 h4 h7 (i := 0) (hne 0 (by omega))
  have hp1 : r1.prior = some p := w2.prior.trans h1
  have hr1 : r1.heap.read .pts p = xs.map pt := by
    have := w2.samples
    rw [hp1, w7] at this
    refine (Option.some.inj this).trans ?_
    exact writeSlice_selfR (xs.map pt) (0 * (slopeEnv true).nActive) (slopeEnv true).nActive
  obtain ⟨r2, s2, it2, v1, v2, -⟩ := warm_step (rnd := rnd) (m := ⟨fun x => x, fun xs => xs, none⟩)
    (slope_user true) first_finite (fun ys => rfl) (b := none) rfl (fun _ hh => by cases hh) hp1 (w2.whole p hp1) (by rw [w8]; exact h3) hr1
    (by rw [w8]; exact h7) (i := 1) (hne 1 (by omega))
  refine ⟨r0, r1, r2, fun _ => ⟨fun _ => rfl, rfl⟩, h0, ?_, ?_, ?_, ?_⟩
  · unfold warmupLoopR
    rw [w1]
    rfl
  · unfold warmupLoopR
    rw [v1]
    rfl
  · unfold shown
    rw [w2.hist, h8]
    rfl
  · unfold shown
    rw [v2.hist, w2.hist, h8]
    rfl

end Demo

end Poco
