import Verif.Lemmas.Memory
import Verif.Lemmas.Inv

/-! The main loop and the warm-up with arrays in memory. -/

namespace Poco
open F

variable {d : ℕ} {B Φ : Type}

/-! ### references that are safe -/

theorem RefIter.Alive.ext {b : Option ℕ} {h h' : Heap d B} {r : RefIter} (hr : r.Alive b h) (he : Ext b h h') : r.Alive b h' := by
  obtain ⟨h1, h2, h3, h4, h5, h6, h7⟩ := hr
  exact ⟨he.live h1, he.live h2, he.live h3, he.live h4, he.live h5, he.live h6, fun v hv => he.live (h7 v hv)⟩

theorem RefIter.Alive.see {b : Option ℕ} {h h' : Heap d B} {r : RefIter} (hr : r.Alive b h) (he : Ext b h h') :
    r.see h' = r.see h := by
  obtain ⟨h1, h2, h3, h4, h5, h6, h7⟩ := hr
  unfold RefIter.see
  have h8 : r.blobs.map (h'.read .blobs) = r.blobs.map (h.read .blobs) := by
    cases hb : r.blobs with
    | none => rfl
    | some v => simp only [Option.map_some, he.read (h7 v hb)]
  rw [he.read h1, he.read h2, he.read h3, he.read h4, he.read h5, he.read h6, h8]

theorem newBlobs_spec {b : Option ℕ} {h : Heap d B} (hb : HasBuffer b h) (o : Option (List (List B))) :
    Ext b h (newBlobs h o).1 ∧ (newBlobs h o).2.map ((newBlobs h o).1.read .blobs) = o ∧
      ∀ v, (newBlobs h o).2 = some v → Live b (newBlobs h o).1 .blobs v ∧ h.next ≤ v.base := by
  cases o with
  | none => exact ⟨Ext.refl b h, rfl, fun v hv => by cases hv⟩
  | some l =>
    refine ⟨Ext.new b h .blobs l, by simp only [newBlobs, Option.map_some, read_new], fun v hv => ?_⟩
    simp only [newBlobs, Option.some.injEq] at hv
    subst hv
    exact ⟨live_new hb .blobs l, le_rfl⟩

theorem newIter_spec {b : Option ℕ} {h : Heap d B} (hb : HasBuffer b h) (logw : View) (hl : Live b h .nums logw)
    (it : Iter d (List B)) (hw : it.logw = h.read .nums logw) :
    Ext b h (newIter h logw it).1 ∧ (newIter h logw it).2.Alive b (newIter h logw it).1 ∧
      (newIter h logw it).2.see (newIter h logw it).1 = it := by
  unfold newIter
  dsimp only
  have e1 := Ext.new b h .pts it.u
  have r1 := read_new h .pts it.u
  have l1 := live_new hb .pts it.u
  have b1 := e1.hasBuffer hb
  generalize hq1 : h.new .pts it.u = q1 at e1 r1 l1 b1 ⊢
  have e2 := Ext.new b q1.1 .pts it.x
  have r2 := read_new q1.1 .pts it.x
  have l2 := live_new b1 .pts it.x
  have b2 := e2.hasBuffer b1
  generalize hq2 : q1.1.new .pts it.x = q2 at e2 r2 l2 b2 ⊢
  have e3 := Ext.new b q2.1 .nums it.logdetj
  have r3 := read_new q2.1 .nums it.logdetj
  have l3 := live_new b2 .nums it.logdetj
  have b3 := e3.hasBuffer b2
  generalize hq3 : q2.1.new .nums it.logdetj = q3 at e3 r3 l3 b3 ⊢
  have e4 := Ext.new b q3.1 .nums it.logl
  have r4 := read_new q3.1 .nums it.logl
  have l4 := live_new b3 .nums it.logl
  have b4 := e4.hasBuffer b3
  generalize hq4 : q3.1.new .nums it.logl = q4 at e4 r4 l4 b4 ⊢
  have e5 := Ext.new b q4.1 .nums it.logp
  have r5 := read_new q4.1 .nums it.logp
  have l5 := live_new b4 .nums it.logp
  have b5 := e5.hasBuffer b4
  generalize hq5 : q4.1.new .nums it.logp = q5 at e5 r5 l5 b5 ⊢
  obtain ⟨e6, r6, l6⟩ := newBlobs_spec b5 it.blobs
  have hal : RefIter.Alive b (newBlobs q5.1 it.blobs).1
      { u := q1.2, x := q2.2, logdetj := q3.2, logl := q4.2, logp := q5.2, logw, blobs := (newBlobs q5.1 it.blobs).2,
        iter := it.iter, logz := it.logz, calls := it.calls, steps := it.steps,
        efficiency := it.efficiency, ess := it.ess, accept := it.accept, beta := it.beta } :=
    ⟨(((((e2.trans e3).trans e4).trans e5).trans e6).live l1), ((((e3.trans e4).trans e5).trans e6).live l2),
      (((e4.trans e5).trans e6).live l3), ((e5.trans e6).live l4), (e6.live l5),
      ((((((e1.trans e2).trans e3).trans e4).trans e5).trans e6).live hl), fun v hv => (l6 v hv).1⟩
  refine ⟨((((e1.trans e2).trans e3).trans e4).trans e5).trans e6, hal, ?_⟩
  unfold RefIter.see
  simp only
  rw [((((e2.trans e3).trans e4).trans e5).trans e6).read l1, (((e3.trans e4).trans e5).trans e6).read l2,
    ((e4.trans e5).trans e6).read l3, (e5.trans e6).read l4, e6.read l5,
    (((((e1.trans e2).trans e3).trans e4).trans e5).trans e6).read hl, r1, r2, r3, r4, r5, r6, ← hw]

theorem columnsOf_update (p : Particles d (List B)) (its : List (Iter d (List B))) (it : Iter d (List B)) :
    (({ p with past := columnsOf its } : Particles d (List B)).update (Cols.full it)) = { p with past := columnsOf (its ++ [it]) } := by
  simp [Particles.update, columnsOf, Cols.full]

/-! ### one turn of the main loop -/

theorem reweight_logw {e : SamplerEnv d B Φ} {fuel : ℕ} {s s1 : Sampler d B Φ} {c c1 : Cur d B}
    (h : reweight e fuel s c = .ok (s1, c1)) : c1.it.logw = c.it.logw := by
  obtain ⟨nEff, beta, logz, ess, w, tr, -, -, -, g, rfl⟩ := reweight_ok h
  unfold gatherCur at g
  obtain ⟨_, -, g⟩ := bind_ok g
  obtain ⟨_, -, g⟩ := bind_ok g
  obtain ⟨_, -, g⟩ := bind_ok g
  obtain ⟨_, -, g⟩ := bind_ok g
  obtain ⟨_, -, g⟩ := bind_ok g
  obtain ⟨_, -, g⟩ := bind_ok g
  obtain ⟨_, -, g⟩ := bind_ok g
  obtain ⟨_, -, g⟩ := bind_ok g
  obtain ⟨_, -, g⟩ := bind_ok g
  obtain ⟨_, -, g⟩ := bind_ok g
  split_ifs at g
  all_goals
    obtain ⟨_, -, g⟩ := bind_ok g
    simp only [pure, Except.pure, Except.ok.injEq] at g
    rw [← g]

theorem resampleStep_logw {e : SamplerEnv d B Φ} {rnd : Rnd d Φ} {s : Sampler d B Φ} {c c1 : Cur d B}
    (h3 : resampleStep e rnd s c = .ok c1) : c1.it.logw = c.it.logw := by
  unfold resampleStep at h3
  obtain ⟨_, -, h3⟩ := bind_ok h3
  obtain ⟨_, -, h3⟩ := bind_ok h3
  obtain ⟨_, -, h3⟩ := bind_ok h3
  obtain ⟨_, -, h3⟩ := bind_ok h3
  obtain ⟨_, -, h3⟩ := bind_ok h3
  obtain ⟨_, -, h3⟩ := bind_ok h3
  obtain ⟨_, -, h3⟩ := bind_ok h3
  obtain ⟨_, -, h3⟩ := bind_ok h3
  simp only [pure, Except.pure, Except.ok.injEq] at h3
  rw [← h3]

/-- What a step keeps of the sampler in memory. -/
structure KeptR (b : Option ℕ) (r r' : RefSampler d B Φ) : Prop where
  held : Held b r'
  ext : Ext b r.heap r'.heap
  prior : r'.prior = r.prior
  hist : ∃ l, r'.hist = r.hist ++ l

theorem smcStepR_sim (e : SamplerEnv d B Φ) (m : Manners d) (rnd : Rnd d Φ) (fuel : ℕ) (r : RefSampler d B Φ) (b : Option ℕ)
    (hbuf : b = if e.like.vectorize then m.buffer else none) (hr : Held b r) :
    Sim (fun r' s' => r'.see = s' ∧ KeptR b r r') (smcStepR e m rnd fuel r) (smcStep e rnd fuel r.see) := by
  unfold smcStepR smcStep
  have hcur : r.see.cur = r.cur.map fun c => { it := c.see r.heap, weights := r.weights } := rfl
  rw [hcur]
  cases hc : r.cur with
  | none => exact rfl
  | some rc =>
    have hrc := hr.cur rc hc
    show Sim _ (Bind.bind (reweight e fuel r.see { it := rc.see r.heap, weights := r.weights }) _)
      (Bind.bind (reweight e fuel r.see { it := rc.see r.heap, weights := r.weights }) _)
    cases h1 : reweight e fuel r.see { it := rc.see r.heap, weights := r.weights } with
    | error x => exact rfl
    | ok q1 =>
      obtain ⟨s1, c1⟩ := q1
      show Sim _ (Bind.bind (train e rnd s1 c1) _) (Bind.bind (train e rnd s1 c1) _)
      cases h2 : train e rnd s1 c1 with
      | error x => exact rfl
      | ok s2 =>
        show Sim _ (Bind.bind (resampleStep e rnd s2 c1) _) (Bind.bind (resampleStep e rnd s2 c1) _)
        cases h3 : resampleStep e rnd s2 c1 with
        | error x => exact rfl
        | ok c2 =>
          have hlogw : c2.it.logw = r.heap.read .nums rc.logw :=
            (resampleStep_logw h3).trans ((reweight_logw h1).trans rfl)
          have hs2 : s2.particles = r.see.particles ∧ s2.priorSamples = r.see.priorSamples := by
            obtain ⟨n, rfl⟩ := reweight_keep h1
            rcases train_ok h2 with ⟨-, flow, g, rfl⟩ | ⟨-, g, rfl⟩ <;> exact ⟨rfl, rfl⟩
          show Sim _ (Bind.bind (toWalkers c2.it s2.haveBlobs) _) (Bind.bind (mutate e rnd fuel s2 c2) _)
          unfold mutate
          cases h4 : toWalkers c2.it s2.haveBlobs with
          | error x => exact rfl
          | ok ws =>
            show Sim _ (Bind.bind (kernelEnv e s2 c2.it.beta) _)
              (Bind.bind (Bind.bind (kernelEnv e s2 c2.it.beta) _) _)
            cases h5 : kernelEnv e s2 c2.it.beta with
            | error x => exact rfl
            | ok k =>
              have e0 := Ext.new b r.heap .walkers ws
              have hb0 := e0.hasBuffer hr.buffer
              have hs := mcmcR_sim k (afterCall m e.like) b fuel (rnd.mcmc s2.t) (r.heap.new .walkers ws).2
                (r.heap.new .walkers ws).1 hb0
              rw [read_new] at hs
              rw [← hbuf]
              show Sim _ (Bind.bind (mcmcR k (afterCall m e.like) b fuel (rnd.mcmc s2.t) (r.heap.new .walkers ws).2
                (r.heap.new .walkers ws).1) _) (Bind.bind (Bind.bind (mcmc k fuel (rnd.mcmc s2.t) ws) _) _)
              generalize mcmcR k (afterCall m e.like) b fuel (rnd.mcmc s2.t) (r.heap.new .walkers ws).2
                (r.heap.new .walkers ws).1 = E at hs ⊢
              generalize mcmc k fuel (rnd.mcmc s2.t) ws = V at hs ⊢
              cases E with
              | error x => cases V with
                | error y => exact hs
                | ok q => exact hs.elim
              | ok p => cases V with
                | error y => exact hs.elim
                | ok q =>
                  obtain ⟨h, res⟩ := p
                  obtain ⟨a1, a2⟩ := hs
                  simp only at a1 a2
                  subst a1
                  have e1 := e0.trans a2
                  have hw : (writeBack s2 c2 res).2.it.logw = h.read .nums rc.logw := by
                    rw [e1.read hrc.2.2.2.2.2.1]
                    exact hlogw
                  obtain ⟨n1, n2, n3⟩ := newIter_spec (e1.hasBuffer hr.buffer) rc.logw (e1.live hrc.2.2.2.2.2.1)
                    (writeBack s2 c2 res).2.it hw
                  have e2 := e1.trans n1
                  have hsee : r.hist.map (RefIter.see (newIter h rc.logw (writeBack s2 c2 res).2.it).1)
                      = r.hist.map (RefIter.see r.heap) :=
                    List.map_congr_left fun it hit => (hr.hist it hit).see e2
                  have hpr : r.prior.map ((newIter h rc.logw (writeBack s2 c2 res).2.it).1.read .pts)
                      = r.prior.map (r.heap.read .pts) := by
                    cases hp : r.prior with
                    | none => rfl
                    | some p => simp only [Option.map_some, e2.read (hr.prior p hp)]
                  have hwp : (writeBack s2 c2 res).1.particles = s2.particles := rfl
                  refine ⟨?_, ⟨e2.hasBuffer hr.buffer, fun p hp => e2.live (hr.prior p hp), ?_, ?_⟩, e2, rfl, _, rfl⟩
                  · unfold RefSampler.see
                    simp only [List.map_append, List.map_cons, List.map_nil, Option.map_some, n3, hsee, hpr, hwp, hs2.1]
                    have hps : r.see.particles
                        = { r.rest.particles with past := columnsOf (r.hist.map (RefIter.see r.heap)) } := rfl
                    rw [hps, columnsOf_update]
                    have hp2 : (writeBack s2 c2 res).1.priorSamples = r.prior.map (r.heap.read .pts) := hs2.2
                    rw [← hp2]
                    rfl
                  · intro it hit
                    rcases List.mem_append.1 hit with hit | hit
                    · exact (hr.hist it hit).ext e2
                    · rw [List.mem_singleton] at hit
                      subst hit
                      exact n2
                  · intro it hit
                    simp only [Option.some.injEq] at hit
                    subst hit
                    exact n2

/-- Saving the state does not change what a piece of a run ends in. -/
theorem save_andThen (sv : Option ℕ) (hsv : sv ≠ some 0) (t0 : ℕ) (s : Sampler d B Φ) (f : Sampler d B Φ → Trace d B Φ) :
    ((Trace.save sv t0 s).andThen f).2 = (f s).2 := by
  cases sv with
  | none => rfl
  | some k =>
    have hk : k ≠ 0 := fun h => hsv (by rw [h])
    simp only [Trace.save, saveNow, if_neg hk]
    split_ifs <;> rfl

theorem lift_andThen (a : Except PyErr (Sampler d B Φ)) (f : Sampler d B Φ → Trace d B Φ) :
    ((Trace.lift a).andThen f).2 = a >>= fun s => (f s).2 := by
  cases a <;> rfl

theorem KeptR.refl {b : Option ℕ} {r : RefSampler d B Φ} (h : Held b r) : KeptR b r r :=
  ⟨h, Ext.refl b _, rfl, [], (List.append_nil _).symm⟩

theorem KeptR.trans {b : Option ℕ} {r r' r'' : RefSampler d B Φ} (h : KeptR b r r') (k : KeptR b r' r'') : KeptR b r r'' := by
  obtain ⟨l, hl⟩ := h.hist
  obtain ⟨l', hl'⟩ := k.hist
  exact ⟨k.held, h.ext.trans k.ext, k.prior.trans h.prior, l ++ l', by rw [hl', hl, List.append_assoc]⟩

theorem smcLoopR_sim (e : SamplerEnv d B Φ) (m : Manners d) (rnd : Rnd d Φ) (fuel : ℕ) (sv : Option ℕ) (hsv : sv ≠ some 0)
    (t0 : ℕ) (b : Option ℕ) (hbuf : b = if e.like.vectorize then m.buffer else none) :
    ∀ (n : ℕ) (r : RefSampler d B Φ), Held b r →
      Sim (fun r' s' => r'.see = s' ∧ KeptR b r r') (smcLoopR e m rnd fuel n r) (smcLoop e rnd fuel sv t0 n r.see).2 := by
  intro n
  induction n with
  | zero =>
    intro r hr
    unfold smcLoopR smcLoop
    cases notTermination e r.see with
    | error x => exact rfl
    | ok c => cases c with
      | false => exact ⟨rfl, KeptR.refl hr⟩
      | true => exact rfl
  | succ n ih =>
    intro r hr
    unfold smcLoopR smcLoop
    cases notTermination e r.see with
    | error x => exact rfl
    | ok c => cases c with
      | false => exact ⟨rfl, KeptR.refl hr⟩
      | true =>
        simp only
        rw [save_andThen sv hsv, lift_andThen]
        refine Sim.bind (smcStepR_sim e m rnd fuel r b hbuf hr) ?_
        rintro r' s' ⟨rfl, hk⟩
        exact (ih r' hk.held).mono fun r'' s'' h => ⟨h.1, hk.trans h.2⟩

/-! ### warm-up -/

/-- The rows a reference shows are there. -/
def Fits (h : Heap d B) (k : Kind) (v : View) : Prop :=
  (h.read k v).length = v.len ∧ (v.len = 0 ∨ v.start ≤ (h.mem k v.base).length)

theorem writeSlice_nil {α : Type} (l : List α) (s : ℕ) : writeSlice l s [] = l := by
  unfold writeSlice
  simp

theorem writeSlice_len {h : Heap d B} {k : Kind} {v : View} (hf : Fits h k v) (xs : List (Elem d B k)) (hl : xs.length = v.len) :
    (writeSlice (h.mem k v.base) v.start xs).length = (h.mem k v.base).length := by
  rcases hf.2 with h0 | h0
  · rw [List.eq_nil_of_length_eq_zero (hl.trans h0), writeSlice_nil]
  · have h1 := hf.1
    unfold Heap.read at h1
    rw [List.length_take, List.length_drop] at h1
    exact writeSlice_lengthR _ _ _ (by omega)

theorem Fits.read_write {h : Heap d B} {k : Kind} {v : View} (hf : Fits h k v) (xs : List (Elem d B k))
    (hl : xs.length = v.len) : (h.write k v xs).read k v = xs := by
  rcases hf.2 with h0 | h0
  · have hx := List.eq_nil_of_length_eq_zero (hl.trans h0)
    unfold Heap.read
    rw [h0, List.take_zero, hx]
  · exact read_write_self h k v xs h0 hl

theorem Fits.write {h : Heap d B} {k : Kind} {v : View} (hf : Fits h k v) (xs : List (Elem d B k))
    (hl : xs.length = v.len) : Fits (h.write k v xs) k v := by
  refine ⟨by rw [hf.read_write xs hl, hl], ?_⟩
  rw [write_mem_self, writeSlice_len hf xs hl]
  exact hf.2

theorem Fits.of_mem {h h' : Heap d B} {k : Kind} {v : View} (hf : Fits h k v) (hm : h'.mem k v.base = h.mem k v.base) :
    Fits h' k v := by
  unfold Fits Heap.read at hf ⊢
  rw [hm]
  exact hf

theorem fits_new (h : Heap d B) (k : Kind) (xs : List (Elem d B k)) : Fits (h.new k xs).1 k (h.new k xs).2 :=
  ⟨by rw [read_new]; rfl, Or.inr (Nat.zero_le _)⟩

theorem writeSlice_twice {h : Heap d B} {k : Kind} {v : View} (hf : Fits h k v) (xs ys : List (Elem d B k))
    (hx : xs.length = v.len) (hy : ys.length = v.len) :
    writeSlice (writeSlice (h.mem k v.base) v.start xs) v.start ys = writeSlice (h.mem k v.base) v.start ys := by
  rcases hf.2 with h0 | h0
  · rw [List.eq_nil_of_length_eq_zero (hx.trans h0), writeSlice_nil]
  · unfold writeSlice
    have h1 : ((h.mem k v.base).take v.start).length = v.start := by simp; omega
    congr 1
    · congr 1
      rw [List.append_assoc, List.take_append_of_le_length (by omega), List.take_of_length_le (by omega)]
    · rw [List.append_assoc, List.drop_append, List.drop_of_length_le (by omega), List.nil_append, h1,
        List.drop_append, List.drop_of_length_le (by omega), List.nil_append, List.drop_drop]
      congr 1
      omega

theorem read_write_before {h : Heap d B} {k : Kind} {v : View} (hf : Fits h k v) (xs : List (Elem d B k))
    (hl : xs.length = v.len) (v' : View) (hb : v'.base = v.base → v'.start + v'.len ≤ v.start) :
    (h.write k v xs).read k v' = h.read k v' := by
  by_cases hbb : v'.base = v.base
  · unfold Heap.read
    rw [hbb, write_mem_self]
    rcases hf.2 with h0 | h0
    · rw [List.eq_nil_of_length_eq_zero (hl.trans h0), writeSlice_nil]
    · exact read_writeSlice_before _ _ _ _ _ (hb hbb) h0
  · exact read_write_other h k v xs k v' fun _ => hbb

/-- `h'` differs from `h` in the listed arrays only. -/
def Only (W : List (Kind × ℕ)) (h h' : Heap d B) : Prop :=
  h'.next = h.next ∧ ∀ k a, (k, a) ∉ W → h'.mem k a = h.mem k a

theorem Only.refl (W : List (Kind × ℕ)) (h : Heap d B) : Only W h h := ⟨rfl, fun _ _ _ => rfl⟩

theorem Only.trans {W : List (Kind × ℕ)} {h h' h'' : Heap d B} (h1 : Only W h h') (h2 : Only W h' h'') : Only W h h'' :=
  ⟨h2.1.trans h1.1, fun k a hka => (h2.2 k a hka).trans (h1.2 k a hka)⟩

theorem Only.write {W : List (Kind × ℕ)} {h h' : Heap d B} (h1 : Only W h h') (k : Kind) (v : View) (xs : List (Elem d B k))
    (hW : (k, v.base) ∈ W) : Only W h (h'.write k v xs) :=
  ⟨h1.1, fun k' a hka => (write_mem h' k v xs k' a fun hk ha => hka (by rw [hk, ha]; exact hW)).trans (h1.2 k' a hka)⟩

theorem foldl_set_len {α : Type} (l : List (ℕ × α)) : ∀ a : List α, (l.foldl (fun a q => a.set q.1 q.2) a).length = a.length := by
  induction l with
  | nil => intro a; rfl
  | cons q l ih => intro a; rw [List.foldl_cons, ih, List.length_set]

theorem copyRows_sim (h : Heap d B) (k : Kind) (v : View) (hf : Fits h k v) (dst src : List ℕ) :
    Sim (fun h' l => h' = h.write k v l ∧ l.length = v.len) (h.copyRows k v dst src) (copyRows (h.read k v) dst src) := by
  unfold Heap.copyRows
  cases hc : copyRows (h.read k v) dst src with
  | error x => exact rfl
  | ok l =>
    refine ⟨rfl, ?_⟩
    unfold copyRows at hc
    obtain ⟨vals, -, hc⟩ := bind_ok hc
    simp only [pure, Except.pure, Except.ok.injEq] at hc
    rw [← hc, foldl_set_len, hf.1]

/-- The batch as seen through references to its arrays. -/
def seeBatch (h : Heap d B) (x u logdetj logp logl : View) (bl : Option View) : Batch d B :=
  { x := h.read .pts x, u := h.read .pts u, logdetj := h.read .nums logdetj, logp := h.read .nums logp
    logl := h.read .nums logl, blobs := bl.map (h.read .blobs) }

/-- The arrays of a batch. -/
def batchArrays (x u logdetj logp logl : View) (bl : Option View) : List (Kind × ℕ) :=
  [(.pts, x.base), (.pts, u.base), (.nums, logdetj.base), (.nums, logp.base), (.nums, logl.base)] ++
    (bl.map fun v => (Kind.blobs, v.base)).toList

theorem copyBlobsIn_sim (h : Heap d B) (hb : Bool) (bl : Option View) (hf : ∀ v, bl = some v → Fits h .blobs v) (dst src : List ℕ) :
    Sim (fun h' o => bl.map (h'.read .blobs) = o ∧ (∀ k a, k ≠ .blobs → h'.mem k a = h.mem k a) ∧
        Only ((bl.map fun v => (Kind.blobs, v.base)).toList) h h')
      (copyBlobsIn h hb bl dst src) (copyBlobs hb (bl.map (h.read .blobs)) dst src) := by
  unfold copyBlobsIn copyBlobs
  cases hb with
  | false => exact ⟨rfl, fun _ _ _ => rfl, Only.refl _ h⟩
  | true =>
    cases bl with
    | none => exact rfl
    | some v =>
      have hs := copyRows_sim h .blobs v (hf v rfl) dst src
      show Sim _ (h.copyRows .blobs v dst src) (Bind.bind (copyRows (h.read .blobs v) dst src) _)
      generalize h.copyRows .blobs v dst src = E at hs ⊢
      generalize copyRows (h.read .blobs v) dst src = V at hs ⊢
      cases E with
      | error x => cases V with
        | error y => exact hs
        | ok q => exact hs.elim
      | ok p => cases V with
        | error y => exact hs.elim
        | ok q =>
          obtain ⟨rfl, hl⟩ := hs
          refine ⟨?_, fun k a hk => write_mem h .blobs v q k a fun hh => absurd hh hk,
            (Only.refl _ h).write .blobs v q (by simp)⟩
          simp only [Option.map_some, (hf v rfl).read_write q hl]

theorem replaceInfIn_sim (h : Heap d B) (hb : Bool) (x u logdetj logp logl : View) (bl : Option View) (draw : ℕ → ℕ)
    (fx : Fits h .pts x) (fu : Fits h .pts u) (fj : Fits h .nums logdetj) (fp : Fits h .nums logp) (fl : Fits h .nums logl)
    (fb : ∀ v, bl = some v → Fits h .blobs v) (n1 : u.base ≠ x.base) (n2 : logp.base ≠ logdetj.base)
    (n3 : logl.base ≠ logdetj.base) (n4 : logl.base ≠ logp.base) :
    Sim (fun h' b' => seeBatch h' x u logdetj logp logl bl = b' ∧ b'.x.length = x.len ∧
        h'.mem .pts x.base = writeSlice (h.mem .pts x.base) x.start b'.x ∧ Only (batchArrays x u logdetj logp logl bl) h h')
      (replaceInfIn h hb x u logdetj logp logl bl draw) (replaceInf (seeBatch h x u logdetj logp logl bl) hb draw) := by
  unfold replaceInfIn replaceInf
  show Sim _ (Bind.bind (infDonors (h.read .nums logl) draw) _) (Bind.bind (infDonors (h.read .nums logl) draw) _)
  refine Sim.bind (Sim.same _) ?_
  rintro ⟨dst, src⟩ _ rfl
  simp only
  by_cases hd : dst = []
  · rw [if_pos hd, if_pos hd]
    refine ⟨rfl, fx.1, ?_, Only.refl _ h⟩
    exact (writeSlice_selfR _ _ _).symm
  · rw [if_neg hd, if_neg hd]
    refine Sim.bind (copyRows_sim h .pts x fx dst src) ?_
    rintro _ lx ⟨rfl, hlx⟩
    have fu1 : Fits (h.write .pts x lx) .pts u := fu.of_mem (write_mem _ _ _ _ _ _ fun _ => n1)
    have ru1 : (h.write .pts x lx).read .pts u = h.read .pts u := read_write_other _ _ _ _ _ _ fun _ => n1
    have s2 := copyRows_sim (h.write .pts x lx) .pts u fu1 dst src
    rw [ru1] at s2
    refine Sim.bind s2 ?_
    rintro _ lu ⟨rfl, hlu⟩
    generalize hh2 : (h.write .pts x lx).write .pts u lu = h2
    have m2 : ∀ k a, k ≠ .pts → h2.mem k a = h.mem k a := by
      intro k a hk
      rw [← hh2, write_mem _ _ _ _ _ _ fun e => absurd e hk, write_mem _ _ _ _ _ _ fun e => absurd e hk]
    have fj2 : Fits h2 .nums logdetj := fj.of_mem (m2 _ _ (by decide))
    have rj2 : h2.read .nums logdetj = h.read .nums logdetj := by unfold Heap.read; rw [m2 _ _ (by decide)]
    have s3 := copyRows_sim h2 .nums logdetj fj2 dst src
    rw [rj2] at s3
    refine Sim.bind s3 ?_
    rintro _ lj ⟨rfl, hlj⟩
    have fp3 : Fits (h2.write .nums logdetj lj) .nums logp :=
      fp.of_mem ((write_mem _ _ _ _ _ _ fun _ => n2).trans (m2 _ _ (by decide)))
    have rp3 : (h2.write .nums logdetj lj).read .nums logp = h.read .nums logp := by
      rw [read_write_other _ _ _ _ _ _ fun _ => n2]
      unfold Heap.read; rw [m2 _ _ (by decide)]
    have s4 := copyRows_sim (h2.write .nums logdetj lj) .nums logp fp3 dst src
    rw [rp3] at s4
    refine Sim.bind s4 ?_
    rintro _ lp ⟨rfl, hlp⟩
    have ml4 : ((h2.write .nums logdetj lj).write .nums logp lp).mem .nums logl.base = h.mem .nums logl.base := by
      rw [write_mem _ _ _ _ _ _ fun _ => n4, write_mem _ _ _ _ _ _ fun _ => n3, m2 _ _ (by decide)]
    have fl4 : Fits ((h2.write .nums logdetj lj).write .nums logp lp) .nums logl := fl.of_mem ml4
    have rl4 : ((h2.write .nums logdetj lj).write .nums logp lp).read .nums logl = h.read .nums logl := by
      unfold Heap.read; rw [ml4]
    have s5 := copyRows_sim ((h2.write .nums logdetj lj).write .nums logp lp) .nums logl fl4 dst src
    rw [rl4] at s5
    refine Sim.bind s5 ?_
    rintro _ ll ⟨rfl, hll⟩
    have rl5 := fl4.read_write ll hll
    have rp5 : (((h2.write .nums logdetj lj).write .nums logp lp).write .nums logl ll).read .nums logp = lp := by
      rw [read_write_other _ _ _ _ _ _ fun _ => n4.symm]
      exact fp3.read_write lp hlp
    have rj5 : (((h2.write .nums logdetj lj).write .nums logp lp).write .nums logl ll).read .nums logdetj = lj := by
      rw [read_write_other _ _ _ _ _ _ fun _ => n3.symm, read_write_other _ _ _ _ _ _ fun _ => n2.symm]
      exact fj2.read_write lj hlj
    have m5 : ∀ k a, k ≠ .nums → (((h2.write .nums logdetj lj).write .nums logp lp).write .nums logl ll).mem k a = h2.mem k a := by
      intro k a hk
      rw [write_mem _ _ _ _ _ _ fun e => absurd e hk, write_mem _ _ _ _ _ _ fun e => absurd e hk,
        write_mem _ _ _ _ _ _ fun e => absurd e hk]
    have o5 : Only (batchArrays x u logdetj logp logl bl) h
        (((h2.write .nums logdetj lj).write .nums logp lp).write .nums logl ll) := by
      rw [← hh2]
      exact ((((((Only.refl _ h).write _ _ _ (by simp [batchArrays])).write _ _ _ (by simp [batchArrays])).write _ _ _
        (by simp [batchArrays])).write _ _ _ (by simp [batchArrays])).write _ _ _ (by simp [batchArrays]))
    generalize ((h2.write .nums logdetj lj).write .nums logp lp).write .nums logl ll = h5 at rl5 rp5 rj5 m5 o5 ⊢
    have fb5 : ∀ v, bl = some v → Fits h5 .blobs v := fun v hv =>
      (fb v hv).of_mem ((m5 _ _ (by decide)).trans (m2 _ _ (by decide)))
    have rb5 : bl.map (h5.read .blobs) = bl.map (h.read .blobs) := by
      cases bl with
      | none => rfl
      | some v =>
        simp only [Option.map_some]
        unfold Heap.read
        rw [m5 _ _ (by decide), m2 _ _ (by decide)]
    have s6 := copyBlobsIn_sim h5 hb bl fb5 dst src
    rw [rb5] at s6
    have s7 : Sim (fun h' (b' : Batch d B) => seeBatch h' x u logdetj logp logl bl = b' ∧ b'.x.length = x.len ∧
        h'.mem .pts x.base = writeSlice (h.mem .pts x.base) x.start b'.x ∧ Only (batchArrays x u logdetj logp logl bl) h h')
        (copyBlobsIn h5 hb bl dst src >>= pure) (copyBlobs hb (bl.map (h.read .blobs)) dst src >>= fun blobs =>
          pure ({ x := lx, u := lu, logdetj := lj, logp := lp, logl := ll, blobs } : Batch d B)) := by
      refine Sim.bind s6 ?_
      rintro h' o ⟨a1, a2, a3⟩
      have hx5 : h'.mem .pts x.base = writeSlice (h.mem .pts x.base) x.start lx := by
        rw [a2 _ _ (by decide), m5 _ _ (by decide), ← hh2, write_mem _ _ _ _ _ _ fun _ => n1.symm, write_mem_self]
      have hxr : h'.read .pts x = lx := by
        have := fx.read_write lx hlx
        unfold Heap.read at this ⊢
        rw [write_mem_self] at this
        rw [hx5, this]
      have hur : h'.read .pts u = lu := by
        have := fu1.read_write lu hlu
        rw [hh2] at this
        rw [← this]
        unfold Heap.read
        rw [a2 _ _ (by decide), m5 _ _ (by decide)]
      have hn : ∀ v, h'.read .nums v = h5.read .nums v := fun v => by
        unfold Heap.read
        rw [a2 _ _ (by decide)]
      refine ⟨?_, hlx, hx5, o5.trans ⟨a3.1, fun k a hka => a3.2 k a fun hm => hka ?_⟩⟩
      · unfold seeBatch
        rw [hxr, hur, hn, hn, hn, rj5, rp5, rl5, a1]
      · unfold batchArrays
        exact List.mem_append_right _ hm
    rw [bind_pure] at s7
    exact s7

/-- One warm-up iteration on values, in which the likelihood turned the positions into `after`. -/
noncomputable def warmupWith (after : List (Pt d) → List (Pt d)) (e : SamplerEnv d B Φ) (rnd : Rnd d Φ) (s : Sampler d B Φ)
    (i : ℕ) : Except PyErr (Sampler d B Φ) := do
  let (b0, hb) ← warmupBatch e s i
  let calls := s.calls + e.nActive
  let b ← replaceInf { b0 with x := after b0.x } hb (rnd.warm s.t)
  let it := warmupIter b e.nActive s.t calls s.nEffective
  return { s with priorSamples := s.priorSamples.map fun ps => writeSlice ps (i * e.nActive) b.x
                  haveBlobs := hb
                  calls := calls
                  cur := some { it, weights := none }
                  particles := s.particles.update (Cols.full it)
                  t := s.t + 1
                  evals := s.evals ++ b0.x }

theorem warmupWith_id (e : SamplerEnv d B Φ) (rnd : Rnd d Φ) (s : Sampler d B Φ) (i : ℕ)
    (after : List (Pt d) → List (Pt d)) (ha : ∀ xs, after xs = xs) : warmupWith after e rnd s i = warmupStep e rnd s i := by
  unfold warmupWith warmupStep
  simp only [ha]

theorem returned_spec (m : Manners d) (vec : Bool) (b : Option ℕ) (hbuf : b = if vec then m.buffer else none) (h : Heap d B)
    (hb : HasBuffer b h) (l : List F) :
    Fits (returned m vec h l).1 .nums (returned m vec h l).2 ∧ Ext b h (returned m vec h l).1 ∧
      (b = some (returned m vec h l).2.base ∨ (b = none ∧ (returned m vec h l).2.base = h.next ∧
        (returned m vec h l).2.base < (returned m vec h l).1.next)) ∧ (returned m vec h l).2.start = 0 ∧
      (returned m vec h l).2.len = l.length := by
  have he := returned_ext (Ext.refl b h) m vec hbuf l
  refine ⟨⟨?_, ?_⟩, he, ?_⟩
  · rw [returned_read]
    unfold returned
    split
    · split <;> rfl
    · rfl
  · right
    unfold returned
    split
    · split <;> exact Nat.zero_le _
    · exact Nat.zero_le _
  · subst hbuf
    unfold returned
    cases vec with
    | true =>
      simp only [if_true]
      cases m.buffer with
      | none => exact ⟨Or.inr ⟨rfl, rfl, Nat.lt_succ_self _⟩, rfl, rfl⟩
      | some a => exact ⟨Or.inl rfl, rfl, rfl⟩
    | false => exact ⟨Or.inr ⟨rfl, rfl, Nat.lt_succ_self _⟩, rfl, rfl⟩

theorem newBlobs_fits (h : Heap d B) (o : Option (List (List B))) (v : View) (hv : (newBlobs h o).2 = some v) :
    Fits (newBlobs h o).1 .blobs v := by
  cases o with
  | none => cases hv
  | some l =>
    simp only [newBlobs, Option.some.injEq] at hv
    subst hv
    exact fits_new h .blobs l

/-- The array `prior_samples` is shown whole. -/
def PriorWhole (h : Heap d B) (p : View) : Prop := p.start = 0 ∧ p.base < h.next ∧ (h.mem .pts p.base).length = p.len

theorem slice_read (h : Heap d B) (p : View) (hp : PriorWhole h p) (lo n : ℕ) :
    h.read .pts (p.slice lo n) = ((h.read .pts p).drop lo).take n ∧ Fits h .pts (p.slice lo n) := by
  obtain ⟨p1, p2, p3⟩ := hp
  have e1 : h.read .pts (p.slice lo n) = ((h.read .pts p).drop lo).take n := by
    unfold Heap.read View.slice
    simp only
    rw [p1, Nat.zero_add, List.drop_zero, List.take_of_length_le (by omega : (h.mem .pts p.base).length ≤ p.len)]
    rcases Nat.le_total n (p.len - lo) with h1 | h1
    · rw [min_eq_left h1]
    · rw [min_eq_right h1, List.take_of_length_le (by simp; omega), List.take_of_length_le (by simp; omega)]
  refine ⟨e1, ?_, ?_⟩
  · unfold Heap.read View.slice
    simp only
    rw [List.length_take, List.length_drop, p3]
    omega
  · show min n (p.len - lo) = 0 ∨ p.start + lo ≤ _
    show min n (p.len - lo) = 0 ∨ p.start + lo ≤ (h.mem .pts p.base).length
    rw [p3, p1]
    omega

theorem okb {α β : Type} (a : α) (f : α → Except PyErr β) : (Except.ok a >>= f) = f a := rfl

theorem pureb {α β : Type} (a : α) (f : α → Except PyErr β) : (pure a >>= f) = f a := rfl

/-- What one warm-up iteration does in memory, whatever the likelihood's manners.  The user's array, if there is one, is `b`. -/
structure Warmed (L : LikeEnv d B) (b : Option ℕ) (i n : ℕ) (r r' : RefSampler d B Φ) (s' : Sampler d B Φ) (it : RefIter) : Prop where
  hist : r'.hist = r.hist ++ [it]
  cur : r'.cur = some it
  weights : r'.weights = none
  prior : r'.prior = r.prior
  see : s'.cur = some { it := it.see r'.heap, weights := none }
  samples : r'.prior.map (r'.heap.read .pts) = s'.priorSamples
  rest : s' = { r'.rest with priorSamples := s'.priorSamples, particles := r.see.particles.update (Cols.full (it.see r'.heap))
                             cur := s'.cur }
  parts : r'.rest.particles = r.rest.particles
  warmup : r'.rest.warmup = r.rest.warmup
  next : r.heap.next ≤ r'.heap.next
  frame : ∀ k v, Live b r.heap k v →
    (k = .pts → ∀ p, r.prior = some p → v.base = p.base → v.start + v.len ≤ i * n) → r'.heap.read k v = r.heap.read k v
  whole : ∀ p, r'.prior = some p → PriorWhole r'.heap p
  alive : Live b r'.heap .pts it.u ∧ Live b r'.heap .pts it.x ∧ Live b r'.heap .nums it.logdetj ∧
    Live b r'.heap .nums it.logp ∧ Live b r'.heap .nums it.logw ∧ ∀ v, it.blobs = some v → Live b r'.heap .blobs v
  logl : b = some it.logl.base ∨ (b = none ∧ Live b r'.heap .nums it.logl)
  logl_start : it.logl.start = 0
  logl_len : ∃ p bl hb logl, r.prior = some p ∧
    logLike L (((r.heap.read .pts p).drop (i * n)).take n) = .ok (logl, bl, hb) ∧ it.logl.len = logl.length
  u_new : ∀ p, r.prior = some p → it.u.base ≠ p.base
  x_pos : ∀ p, r.prior = some p → it.x.start + it.x.len ≤ (i + 1) * n

theorem warmupStepR_sim (e : SamplerEnv d B Φ) (m : Manners d) (hm : ∀ xs, (afterCall m e.like xs).length = xs.length) (rnd : Rnd d Φ)
    (r : RefSampler d B Φ) (i : ℕ) (b : Option ℕ) (hbuf : b = if e.like.vectorize then m.buffer else none)
    (hb : HasBuffer b r.heap) (hp : ∀ p, r.prior = some p → PriorWhole r.heap p) :
    Sim (fun r' s' => ∃ it, Warmed e.like b i e.nActive r r' s' it) (warmupStepR e m rnd r i)
      (warmupWith (afterCall m e.like) e rnd r.see i) := by
  unfold warmupStepR warmupWith warmupBatch
  have hps : r.see.priorSamples = r.prior.map (r.heap.read .pts) := rfl
  rw [hps]
  cases hpr : r.prior with
  | none => exact rfl
  | some p =>
    have hpw := hp p hpr
    obtain ⟨sx, fx⟩ := slice_read r.heap p hpw (i * e.nActive) e.nActive
    simp only [Option.map_some, orErr, okb]
    generalize hx : p.slice (i * e.nActive) e.nActive = x at sx fx ⊢
    have hxb : x.base = p.base := by rw [← hx]; rfl
    have hxs : x.start = i * e.nActive := by rw [← hx]; show p.start + _ = _; rw [hpw.1, Nat.zero_add]
    have hxl : x.len ≤ e.nActive := by rw [← hx]; exact min_le_left _ _
    have lx : Live b r.heap .pts x := ⟨by rw [hxb]; exact hpw.2.1, fun hh => by cases hh⟩
    have hsc : r.see.scaler = r.rest.scaler := rfl
    simp only [hsc, sx]
    generalize hxdef : ((r.heap.read .pts p).drop (i * e.nActive)).take e.nActive = xs at sx ⊢
    cases r.rest.scaler.forward xs with
    | error y => exact rfl
    | ok us =>
      simp only [okb]
      cases r.rest.scaler.inverse us with
      | error y => exact rfl
      | ok inv =>
        -- the three new arrays
        have e1 := Ext.new b r.heap .pts us
        have r1 := read_new r.heap .pts us
        have l1 := live_new hb .pts us
        have f1 := fits_new r.heap .pts us
        have c1 : (r.heap.new .pts us).2.base = r.heap.next := rfl
        have b1 := e1.hasBuffer hb
        have m1 : (r.heap.new .pts us).1.mem .pts x.base = r.heap.mem .pts x.base := new_mem _ _ _ _ _ lx.1.ne
        have d1 : (r.heap.new .pts us).1.next = r.heap.next + 1 := rfl
        simp only [okb]
        generalize r.heap.new .pts us = q1 at e1 r1 l1 f1 c1 b1 m1 d1 ⊢
        have e2 := Ext.new b q1.1 .nums (inv.map (·.2))
        have r2 := read_new q1.1 .nums (inv.map (·.2))
        have l2 := live_new b1 .nums (inv.map (·.2))
        have f2 := fits_new q1.1 .nums (inv.map (·.2))
        have c2 : (q1.1.new .nums (inv.map (·.2))).2.base = q1.1.next := rfl
        have b2 := e2.hasBuffer b1
        have d2 : (q1.1.new .nums (inv.map (·.2))).1.next = q1.1.next + 1 := rfl
        generalize q1.1.new .nums (inv.map (·.2)) = q2 at e2 r2 l2 f2 c2 b2 d2 ⊢
        have rx2 : q2.1.read .pts x = xs := by rw [(e1.trans e2).read lx, sx]
        rw [rx2]
        have e3 := Ext.new b q2.1 .nums (e.logPrior xs)
        have r3 := read_new q2.1 .nums (e.logPrior xs)
        have l3 := live_new b2 .nums (e.logPrior xs)
        have f3 := fits_new q2.1 .nums (e.logPrior xs)
        have c3 : (q2.1.new .nums (e.logPrior xs)).2.base = q2.1.next := rfl
        have b3 := e3.hasBuffer b2
        have d3 : (q2.1.new .nums (e.logPrior xs)).1.next = q2.1.next + 1 := rfl
        generalize q2.1.new .nums (e.logPrior xs) = q3 at e3 r3 l3 f3 c3 b3 d3 ⊢
        have e13 := (e1.trans e2).trans e3
        have rx3 : q3.1.read .pts x = xs := by rw [e13.read lx, sx]
        have mx3 : q3.1.mem .pts x.base = r.heap.mem .pts x.base := e13.2 .pts x.base lx.1 lx.2
        have fx3 : Fits q3.1 .pts x := fx.of_mem mx3
        -- the likelihood
        unfold callLike
        rw [rx3]
        cases hans : logLike e.like xs with
        | error y => exact rfl
        | ok ans =>
          obtain ⟨logl, blobs, hbl⟩ := ans
          simp only [okb, pureb]
          have ha : (afterCall m e.like xs).length = x.len := by
            rw [hm, ← fx.1, sx]
          generalize afterCall m e.like xs = ys at ha ⊢
          have rx4 := fx3.read_write ys ha
          have fx4 := fx3.write ys ha
          have mx4 : (q3.1.write .pts x ys).mem .pts x.base = writeSlice (r.heap.mem .pts x.base) x.start ys := by
            rw [write_mem_self, mx3]
          have n4 : (q3.1.write .pts x ys).next = q3.1.next := rfl
          have k4 : ∀ k a, (k = .pts → a ≠ x.base) → (q3.1.write .pts x ys).mem k a = q3.1.mem k a := fun k a hk =>
            write_mem _ _ _ _ _ _ hk
          have w4 : ∀ v, (v.base = x.base → v.start + v.len ≤ x.start) →
              (q3.1.write .pts x ys).read .pts v = q3.1.read .pts v := fun v hv => read_write_before fx3 ys ha v hv
          generalize q3.1.write .pts x ys = h4 at rx4 fx4 mx4 n4 k4 w4 ⊢
          have b4 : HasBuffer b h4 := fun a hh => by rw [n4]; exact b3 a hh
          obtain ⟨f5, e5, p5, st5, ln5⟩ := returned_spec m e.like.vectorize b hbuf h4 b4 logl
          have r5 := returned_read m e.like.vectorize h4 logl
          generalize hq5 : returned m e.like.vectorize h4 logl = q5 at f5 e5 p5 st5 ln5 r5 ⊢
          have b5 := e5.hasBuffer b4
          obtain ⟨e6, r6, l6⟩ := newBlobs_spec b5 blobs
          have f6 := newBlobs_fits q5.1 blobs
          have k6 : ∀ k a, k ≠ .blobs → (newBlobs q5.1 blobs).1.mem k a = q5.1.mem k a := by
            intro k a hk
            cases blobs with
            | none => rfl
            | some l =>
              show (q5.1.new .blobs l).1.mem k a = q5.1.mem k a
              unfold Heap.new
              simp [Function.update_of_ne hk]
          show Sim _ (Bind.bind (replaceInfIn (newBlobs q5.1 blobs).1 (r.rest.haveBlobs || hbl) x q1.2 q2.2 q3.2 q5.2
            (newBlobs q5.1 blobs).2 (rnd.warm r.rest.t)) _)
            (Bind.bind (replaceInf { x := ys, u := us, logdetj := inv.map (·.2), logp := e.logPrior xs, logl, blobs }
              (r.rest.haveBlobs || hbl) (rnd.warm r.rest.t)) _)
          generalize newBlobs q5.1 blobs = q6 at e6 r6 l6 f6 k6 ⊢
          have e56 := e5.trans e6
          have hnx : r.heap.next < q3.1.next := by omega
          have lx4 : Live b h4 .pts x := ⟨by rw [n4]; exact lt_of_lt_of_le lx.1 e13.1, fun hh => by cases hh⟩
          have lu4 : Live b h4 .pts q1.2 := ⟨by rw [n4, c1]; exact hnx, fun hh => by cases hh⟩
          have lj4 : Live b h4 .nums q2.2 := ⟨by rw [n4]; exact (e3.live l2).1, l2.2⟩
          have lp4 : Live b h4 .nums q3.2 := ⟨by rw [n4]; exact l3.1, l3.2⟩
          have ux : q1.2.base ≠ x.base := by rw [c1]; exact lx.1.ne'
          have ru4 : h4.read .pts q1.2 = us := by
            rw [w4 _ fun hh => absurd hh ux, (e2.trans e3).read l1, r1]
          have rj4 : h4.read .nums q2.2 = inv.map (·.2) := by
            have : h4.read .nums q2.2 = q3.1.read .nums q2.2 := by unfold Heap.read; rw [k4 _ _ (fun hh => by cases hh)]
            rw [this, e3.read l2, r2]
          have rp4 : h4.read .nums q3.2 = e.logPrior xs := by
            have : h4.read .nums q3.2 = q3.1.read .nums q3.2 := by unfold Heap.read; rw [k4 _ _ (fun hh => by cases hh)]
            rw [this, r3]
          have rl6 : q6.1.read .nums q5.2 = logl := by
            have : q6.1.read .nums q5.2 = q5.1.read .nums q5.2 := by unfold Heap.read; rw [k6 _ _ (by decide)]
            rw [this, r5]
          have hseen : seeBatch q6.1 x q1.2 q2.2 q3.2 q5.2 q6.2
              = { x := ys, u := us, logdetj := inv.map (·.2), logp := e.logPrior xs, logl, blobs } := by
            unfold seeBatch
            rw [e56.read lx4, rx4, e56.read lu4, ru4, e56.read lj4, rj4, e56.read lp4, rp4, rl6, r6]
          have gx : Fits q6.1 .pts x := fx4.of_mem (e56.2 _ _ lx4.1 lx4.2)
          have gu : Fits q6.1 .pts q1.2 := f1.of_mem ((e56.2 _ _ lu4.1 lu4.2).trans ((k4 _ _ fun _ => ux).trans
            ((e2.trans e3).2 _ _ l1.1 l1.2)))
          have gj : Fits q6.1 .nums q2.2 := f2.of_mem ((e56.2 _ _ lj4.1 lj4.2).trans
            ((k4 _ _ fun hh => by cases hh).trans (e3.2 _ _ l2.1 l2.2)))
          have gp : Fits q6.1 .nums q3.2 := f3.of_mem ((e56.2 _ _ lp4.1 lp4.2).trans (k4 _ _ fun hh => by cases hh))
          have gl : Fits q6.1 .nums q5.2 := f5.of_mem (k6 _ _ (by decide))
          have jl : q5.2.base ≠ q2.2.base ∧ q5.2.base ≠ q3.2.base ∧ q5.2.base < q5.1.next := by
            rcases p5 with h5 | ⟨-, h5, h5'⟩
            · have := hb _ h5
              have h6 := e5.1
              omega
            · omega
          have hs := replaceInfIn_sim q6.1 (r.rest.haveBlobs || hbl) x q1.2 q2.2 q3.2 q5.2 q6.2 (rnd.warm r.rest.t)
            gx gu gj gp gl (f6 ·) ux (by omega) jl.1 jl.2.1
          rw [hseen] at hs
          refine Sim.bind hs ?_
          rintro h' b' ⟨z1, z2, z3, z4⟩
          -- the arrays that were there before
          have hx6 : q6.1.mem .pts x.base = writeSlice (r.heap.mem .pts x.base) x.start ys :=
            (e56.2 _ _ lx4.1 lx4.2).trans mx4
          have hx7 : h'.mem .pts x.base = writeSlice (r.heap.mem .pts x.base) x.start b'.x := by
            rw [z3, hx6, writeSlice_twice fx ys b'.x ha z2]
          have hnext : q5.1.next ≤ h'.next := by rw [z4.1]; exact e6.1
          have hn0 : r.heap.next < h'.next := by have := e5.1; omega
          have hmem : ∀ k a, a < r.heap.next → (k = .nums → b ≠ some a) → (k = .pts → a ≠ x.base) →
              h'.mem k a = r.heap.mem k a := by
            intro k a ha' hb' hx'
            have hbl : ∀ v, q6.2 = some v → a ≠ v.base := fun v hv => by
              have := (l6 v hv).2
              have := e5.1
              omega
            rw [z4.2 k a ?_, e56.2 k a (by omega) hb', k4 k a hx', e13.2 k a ha' hb']
            unfold batchArrays
            intro hin
            rcases List.mem_append.1 hin with hin | hin
            · simp only [List.mem_cons, Prod.mk.injEq, List.not_mem_nil, or_false] at hin
              rcases hin with ⟨hk, hh⟩ | ⟨hk, hh⟩ | ⟨hk, hh⟩ | ⟨hk, hh⟩ | ⟨hk, hh⟩
              · exact hx' hk hh
              · omega
              · omega
              · omega
              · rcases p5 with h5 | ⟨-, h5, -⟩
                · exact hb' hk (by rw [hh, h5])
                · omega
            · cases hq : q6.2 with
              | none => rw [hq] at hin; simp at hin
              | some v =>
                rw [hq] at hin
                simp only [Option.map_some, Option.toList_some, List.mem_singleton, Prod.mk.injEq] at hin
                exact hbl v hq hin.2
          -- what the references show at the end
          have hE := Ext.new b h' .nums (List.replicate e.nActive (fin (-1e300)))
          have hW := read_new h' .nums (List.replicate e.nActive (fin (-1e300)))
          have hL := live_new (b := b) (h := h') (fun a hh => by have := hb a hh; omega) .nums
            (List.replicate e.nActive (fin (-1e300)))
          have hM : ∀ k a, a < h'.next → (h'.new .nums (List.replicate e.nActive (fin (-1e300)))).1.mem k a = h'.mem k a :=
            fun k a hh => new_mem _ _ _ _ _ hh.ne
          generalize h'.new .nums (List.replicate e.nActive (fin (-1e300))) = q7 at hE hW hL hM ⊢
          have hR : ∀ k v, v.base < h'.next → q7.1.read k v = h'.read k v := fun k v hh => by
            unfold Heap.read; rw [hM k _ hh]
          have hsee : RefIter.see q7.1
              { u := q1.2, x, logdetj := q2.2, logl := q5.2, logp := q3.2, logw := q7.2, blobs := q6.2, iter := r.rest.t,
                logz := fin 0, calls := r.rest.calls + e.nActive, steps := 1, efficiency := fin 1,
                ess := F.ofNat r.rest.nEffective, accept := fin 1, beta := fin 0 }
              = warmupIter b' e.nActive r.rest.t (r.rest.calls + e.nActive) r.rest.nEffective := by
            have hbb : q6.2.map (q7.1.read .blobs) = q6.2.map (h'.read .blobs) := by
              cases hq : q6.2 with
              | none => rfl
              | some v =>
                simp only [Option.map_some]
                rw [hR .blobs v (by rw [z4.1]; exact (l6 v hq).1.1)]
            unfold RefIter.see warmupIter
            simp only
            have h5n := e5.1
            have hx0 := lx.1
            rw [hR .pts q1.2 (by omega), hR .pts x (by omega), hR .nums q2.2 (by omega), hR .nums q5.2 (by omega),
              hR .nums q3.2 (by omega), hW, hbb, ← z1]
            rfl
          have hlen : (writeSlice (r.heap.mem .pts x.base) x.start b'.x).length = (r.heap.mem .pts x.base).length :=
            writeSlice_len fx b'.x z2
          have hx7' : q7.1.mem .pts p.base = writeSlice (r.heap.mem .pts p.base) (i * e.nActive) b'.x := by
            have h1 := hpw.2.1
            rw [hM _ _ (by omega), ← hxb, hx7, hxs]
          have hread : r.heap.read .pts p = r.heap.mem .pts p.base := by
            unfold Heap.read
            rw [hpw.1, List.drop_zero, List.take_of_length_le (by rw [hpw.2.2])]
          rw [hxb, hxs] at hlen
          have h5n := e5.1
          have h7n := hE.1
          refine ⟨_, rfl, rfl, rfl, hpr.symm, ?_, ?_, ?_, rfl, rfl, ?_, ?_, ?_, ?_, ?_, st5,
            ⟨p, blobs, hbl, logl, hpr, by rw [hxdef]; exact hans, ln5⟩, ?_, ?_⟩
          · simp only [hsee]
            rfl
          · simp only [Option.map_some]
            rw [hread]
            unfold Heap.read
            rw [hx7', hpw.1, List.drop_zero, List.take_of_length_le (by rw [hlen, hpw.2.2])]
          · simp only [hsee]
            rfl
          · show r.heap.next ≤ q7.1.next
            omega
          · intro k v hv hvx
            show q7.1.read k v = r.heap.read k v
            rw [hR k v (by have := hv.1; omega)]
            by_cases hkx : k = .pts ∧ v.base = x.base
            · obtain ⟨rfl, hvb⟩ := hkx
              have h1 := read_write_before fx b'.x z2 v fun hh => by
                rw [hxs]
                exact hvx rfl p hpr (hh.trans hxb)
              rw [← h1]
              unfold Heap.read
              rw [hvb, write_mem_self, hx7]
            · unfold Heap.read
              rw [hmem k v.base hv.1 hv.2 fun hk hh => hkx ⟨hk, hh⟩]
          · intro p' hp'
            have hpp : p' = p := by
              have : some p = some p' := hp'
              exact (Option.some.inj this).symm
            subst hpp
            refine ⟨hpw.1, ?_, ?_⟩
            · have := hpw.2.1
              show p'.base < q7.1.next
              omega
            · show (q7.1.mem .pts p'.base).length = p'.len
              rw [hx7', hlen, hpw.2.2]
          · refine ⟨⟨?_, fun hh => by cases hh⟩, ⟨?_, fun hh => by cases hh⟩, ⟨?_, l2.2⟩, ⟨?_, l3.2⟩, hL, fun v hv => ⟨?_, fun hh => by cases hh⟩⟩
            · show q1.2.base < q7.1.next; omega
            · have := lx.1
              show x.base < q7.1.next; omega
            · show q2.2.base < q7.1.next; omega
            · show q3.2.base < q7.1.next; omega
            · have := (l6 v hv).1.1
              show v.base < q7.1.next
              have := z4.1
              omega
          · rcases p5 with h5 | ⟨h5, h5', h5''⟩
            · exact Or.inl h5
            · refine Or.inr ⟨h5, ?_, fun _ hh => by rw [h5] at hh; cases hh⟩
              show q5.2.base < q7.1.next
              omega
          · intro p' hp'
            rw [hpr] at hp'
            cases hp'
            show q1.2.base ≠ p.base
            rw [← hxb]
            exact ux
          · intro p' hp'
            show x.start + x.len ≤ (i + 1) * e.nActive
            rw [hxs, Nat.succ_mul]
            omega

/-! ### the whole run, when no array is reused -/

/-- Where the references of an iteration point, relative to the array of prior samples: `u` elsewhere, `x` before row `k`. -/
def RefIter.Before (k : ℕ) (p : View) (it : RefIter) : Prop :=
  it.u.base ≠ p.base ∧ (it.x.base = p.base → it.x.start + it.x.len ≤ k)

/-- The state of memory after the batches before row `k` of the prior samples. -/
structure Placed (k : ℕ) (r : RefSampler d B Φ) : Prop where
  held : Held none r
  whole : ∀ p, r.prior = some p → PriorWhole r.heap p
  hist : ∀ p, r.prior = some p → ∀ it ∈ r.hist, it.Before k p
  cur : ∀ p, r.prior = some p → ∀ it, r.cur = some it → it.Before k p

theorem Placed.frame {L : LikeEnv d B} {i n : ℕ} {r r' : RefSampler d B Φ} {s' : Sampler d B Φ} {it : RefIter}
    (hw : Warmed L none i n r r' s' it) {j : RefIter} (hj : j.Alive none r.heap)
    (hb : ∀ p, r.prior = some p → j.Before (i * n) p) : j.see r'.heap = j.see r.heap := by
  obtain ⟨h1, h2, h3, h4, h5, h6, h7⟩ := hj
  unfold RefIter.see
  have h8 : j.blobs.map (r'.heap.read .blobs) = j.blobs.map (r.heap.read .blobs) := by
    cases hbl : j.blobs with
    | none => rfl
    | some v => simp only [Option.map_some, hw.frame .blobs v (h7 v hbl) (fun hk => by cases hk)]
  rw [hw.frame .pts j.u h1 (fun _ p hp hh => absurd hh (hb p hp).1), hw.frame .pts j.x h2 (fun _ p hp hh => (hb p hp).2 hh),
    hw.frame .nums j.logdetj h3 (fun hk => by cases hk), hw.frame .nums j.logl h4 (fun hk => by cases hk),
    hw.frame .nums j.logp h5 (fun hk => by cases hk), hw.frame .nums j.logw h6 (fun hk => by cases hk), h8]

theorem RefIter.Alive.next {b : Option ℕ} {h h' : Heap d B} {j : RefIter} (hj : j.Alive b h) (hn : h.next ≤ h'.next) :
    j.Alive b h' := by
  obtain ⟨h1, h2, h3, h4, h5, h6, h7⟩ := hj
  exact ⟨⟨h1.1.trans_le hn, h1.2⟩, ⟨h2.1.trans_le hn, h2.2⟩, ⟨h3.1.trans_le hn, h3.2⟩, ⟨h4.1.trans_le hn, h4.2⟩,
    ⟨h5.1.trans_le hn, h5.2⟩, ⟨h6.1.trans_le hn, h6.2⟩, fun v hv => ⟨(h7 v hv).1.trans_le hn, (h7 v hv).2⟩⟩

theorem RefIter.Before.mono {k k' : ℕ} {p : View} {it : RefIter} (h : it.Before k p) (hk : k ≤ k') : it.Before k' p :=
  ⟨h.1, fun hh => (h.2 hh).trans hk⟩

theorem Warmed.placed {L : LikeEnv d B} {i n : ℕ} {r r' : RefSampler d B Φ} {s' : Sampler d B Φ} {it : RefIter}
    (hw : Warmed L none i n r r' s' it) (hp : Placed (i * n) r) :
    Placed ((i + 1) * n) r' ∧ r'.see = s' ∧ r'.hist.map (RefIter.see r'.heap) = r.hist.map (RefIter.see r.heap) ++ [it.see r'.heap] := by
  obtain ⟨a1, a2, a3, a4, a5, a6⟩ := hw.alive
  have al : Live none r'.heap .nums it.logl := by
    rcases hw.logl with h | h
    · cases h
    · exact h.2
  have hal : it.Alive none r'.heap := ⟨a1, a2, a3, al, a4, a5, a6⟩
  have hle : i * n ≤ (i + 1) * n := Nat.mul_le_mul_right _ (Nat.le_succ i)
  have hbe : ∀ p, r'.prior = some p → it.Before ((i + 1) * n) p := fun p hpp =>
    ⟨hw.u_new p (hw.prior ▸ hpp), fun _ => hw.x_pos p (hw.prior ▸ hpp)⟩
  have hsee : r'.hist.map (RefIter.see r'.heap) = r.hist.map (RefIter.see r.heap) ++ [it.see r'.heap] := by
    rw [hw.hist, List.map_append, List.map_cons, List.map_nil]
    congr 1
    exact List.map_congr_left fun j hj => Placed.frame hw (hp.held.hist j hj) fun p hpp => hp.hist p hpp j hj
  refine ⟨⟨⟨fun a ha => by (cases ha), fun p hpp => ⟨(hw.whole p hpp).2.1, fun hh => by cases hh⟩, ?_, ?_⟩, hw.whole, ?_, ?_⟩, ?_, hsee⟩
  · intro j hj
    rw [hw.hist] at hj
    rcases List.mem_append.1 hj with hj | hj
    · exact (hp.held.hist j hj).next hw.next
    · rw [List.mem_singleton] at hj
      subst hj
      exact hal
  · intro j hj
    rw [hw.cur] at hj
    cases hj
    exact hal
  · intro p hpp j hj
    rw [hw.hist] at hj
    rcases List.mem_append.1 hj with hj | hj
    · exact (hp.hist p (hw.prior ▸ hpp) j hj).mono hle
    · rw [List.mem_singleton] at hj
      subst hj
      exact hbe p hpp
  · intro p hpp j hj
    rw [hw.cur] at hj
    cases hj
    exact hbe p hpp
  · have h1 : r.see.particles = { r.rest.particles with past := columnsOf (r.hist.map (RefIter.see r.heap)) } := rfl
    have h2 := hw.rest
    rw [h1, columnsOf_update, hw.see, ← hw.samples] at h2
    rw [h2]
    unfold RefSampler.see
    rw [hsee, hw.cur, hw.weights, hw.parts]
    rfl

theorem warmupLoopR_sim (e : SamplerEnv d B Φ) (m : Manners d) (hm : ∀ xs, afterCall m e.like xs = xs)
    (hm' : ∀ xs, (afterCall m e.like xs).length = xs.length) (hbuf : (if e.like.vectorize then m.buffer else none) = none) (rnd : Rnd d Φ)
    (sv : Option ℕ) (hsv : sv ≠ some 0) (t0 : ℕ) :
    ∀ (n i : ℕ) (r : RefSampler d B Φ), Placed (i * e.nActive) r →
      Sim (fun r' s' => r'.see = s' ∧ Placed ((i + n) * e.nActive) r' ∧ r'.rest.warmup = r.rest.warmup)
        (warmupLoopR e m rnd n i r) (warmupLoop e rnd sv t0 n i r.see).2 := by
  intro n
  induction n with
  | zero => intro i r hr; exact ⟨rfl, hr, rfl⟩
  | succ n ih =>
    intro i r hr
    unfold warmupLoopR warmupLoop
    rw [save_andThen sv hsv, lift_andThen]
    have hs := warmupStepR_sim e m hm' rnd r i none hbuf.symm hr.held.buffer hr.whole
    rw [warmupWith_id _ _ _ _ _ hm] at hs
    refine Sim.bind hs ?_
    rintro r' s' ⟨it, hw⟩
    obtain ⟨h1, h2, -⟩ := hw.placed hr
    subst h2
    refine (ih (i + 1) r' h1).mono ?_
    rintro r'' s'' ⟨g1, g2, g3⟩
    refine ⟨g1, ?_, g3.trans hw.warmup⟩
    have : i + 1 + n = i + (n + 1) := by omega
    rw [← this]
    exact g2

/-- Stored iterations are not changed by later batches, whatever the likelihood does to the rows it is given. -/
theorem warmupLoopR_keeps (e : SamplerEnv d B Φ) (m : Manners d) (hm' : ∀ xs, (afterCall m e.like xs).length = xs.length)
    (hbuf : (if e.like.vectorize then m.buffer else none) = none) (rnd : Rnd d Φ) :
    ∀ (n i : ℕ) (r r' : RefSampler d B Φ), Placed (i * e.nActive) r → warmupLoopR e m rnd n i r = .ok r' →
      Placed ((i + n) * e.nActive) r' ∧
        ∃ l, r'.hist.map (RefIter.see r'.heap) = r.hist.map (RefIter.see r.heap) ++ l := by
  intro n
  induction n with
  | zero =>
    intro i r r' hr h
    cases h
    exact ⟨hr, [], (List.append_nil _).symm⟩
  | succ n ih =>
    intro i r r' hr h
    unfold warmupLoopR at h
    obtain ⟨r1, h1, h⟩ := bind_ok h
    obtain ⟨s1, -, it, hw⟩ := (warmupStepR_sim e m hm' rnd r i none hbuf.symm hr.held.buffer hr.whole).ok_left h1
    obtain ⟨g1, -, g3⟩ := hw.placed hr
    obtain ⟨k1, l, k2⟩ := ih (i + 1) r1 r' g1 h
    refine ⟨by rw [show i + (n + 1) = i + 1 + n by omega]; exact k1, [it.see r1.heap] ++ l, ?_⟩
    rw [k2, g3, List.append_assoc]

theorem finalEvidence_keepR {e : SamplerEnv d B Φ} {rnd : Rnd d Φ} {s s' : Sampler d B Φ} (h : finalEvidence e rnd s = .ok s') :
    s'.particles = s.particles ∧ s'.priorSamples = s.priorSamples ∧ s'.cur = s.cur ∧ s'.warmup = s.warmup := by
  unfold finalEvidence at h
  split_ifs at h
  · unfold computeEvidence at h
    obtain ⟨inv, -, h⟩ := bind_ok h
    obtain ⟨⟨logl, bl, hb⟩, -, h⟩ := bind_ok h
    simp only [pure, Except.pure, Except.ok.injEq] at h
    rw [← h]
    exact ⟨rfl, rfl, rfl, rfl⟩
  · obtain ⟨⟨a, z⟩, -, h⟩ := bind_ok h
    simp only [pure, Except.pure, Except.ok.injEq] at h
    rw [← h]
    exact ⟨rfl, rfl, rfl, rfl⟩

theorem smcStep_warmup {e : SamplerEnv d B Φ} {rnd : Rnd d Φ} {fuel : ℕ} {s s' : Sampler d B Φ}
    (h : smcStep e rnd fuel s = .ok s') : s'.warmup = s.warmup := (smcStep_keep h).1

theorem smcLoop_warmup {e : SamplerEnv d B Φ} {rnd : Rnd d Φ} {fuel : ℕ} {sv : Option ℕ} {t0 : ℕ} (hsv : sv ≠ some 0) :
    ∀ (n : ℕ) (s s' : Sampler d B Φ), (smcLoop e rnd fuel sv t0 n s).2 = .ok s' → s'.warmup = s.warmup := by
  intro n
  induction n with
  | zero =>
    intro s s' h
    unfold smcLoop at h
    split at h
    · cases h
    · cases h; rfl
    · cases h
  | succ n ih =>
    intro s s' h
    unfold smcLoop at h
    split at h
    · cases h
    · cases h; rfl
    · simp only at h
      rw [save_andThen sv hsv, lift_andThen] at h
      obtain ⟨s1, h1, h⟩ := bind_ok h
      exact (ih s1 s' h).trans (smcStep_warmup h1)

/-- A sampler that was just constructed, or whose runs so far finished. -/
structure Settled (r : RefSampler d B Φ) : Prop where
  held : Held none r
  fresh : r.rest.warmup = true → r.prior = none

theorem runInitR_sim (e : SamplerEnv d B Φ) (rnd : Rnd d Φ) (a : RunArgs) (r : RefSampler d B Φ) (hr : Settled r) :
    Sim (fun r' s' => r'.see = s' ∧ Held none r' ∧ (r'.rest.warmup = true → Placed 0 r') ∧ r'.hist = r.hist ∧
        Ext none r.heap r'.heap)
      (runInitR e rnd a r) (runInit e rnd a r.see) := by
  unfold runInitR runInit
  have hps : r.see.priorSamples = r.prior.map (r.heap.read .pts) := rfl
  simp only [hps]
  cases hp : r.prior with
  | some p =>
    refine ⟨?_, ⟨hr.held.buffer, fun q hq => hr.held.prior q (hp.trans hq), hr.held.hist, hr.held.cur⟩, ?_, rfl, Ext.refl _ _⟩
    · unfold RefSampler.see
      simp only [hp]
    · intro hw
      have := hr.fresh hw
      rw [hp] at this
      cases this
  | none =>
    simp only [Option.map_none]
    have hsc : r.see.scaler = r.rest.scaler := rfl
    rw [hsc]
    cases r.rest.scaler.fit (rnd.prior e.nPrior) with
    | error x => exact rfl
    | ok sc =>
      have e1 := Ext.new none r.heap .pts (rnd.prior e.nPrior)
      have hheld : ∀ it ∈ r.hist, RefIter.Alive none (r.heap.new .pts (rnd.prior e.nPrior)).1 it :=
        fun it hit => (hr.held.hist it hit).ext e1
      have hsee : r.hist.map (RefIter.see (r.heap.new .pts (rnd.prior e.nPrior)).1) = r.hist.map (RefIter.see r.heap) :=
        List.map_congr_left fun it hit => (hr.held.hist it hit).see e1
      have hbb : HasBuffer none (r.heap.new .pts (rnd.prior e.nPrior)).1 := fun a ha => by cases ha
      have hH : Held none { r with heap := (r.heap.new .pts (rnd.prior e.nPrior)).1
                                   prior := some (r.heap.new .pts (rnd.prior e.nPrior)).2
                                   rest := { r.rest with nTotal := a.nTotal, nEvidence := a.nEvidence, scaler := sc } } :=
        ⟨hbb, fun p hp' => by
            cases hp'
            exact live_new hr.held.buffer .pts _, hheld, fun it hit => (hr.held.cur it hit).ext e1⟩
      refine ⟨?_, hH, fun _ => ⟨hH, ?_, ?_, ?_⟩, rfl, e1⟩
      · unfold RefSampler.see
        have hcur : r.cur.map (fun c => ({ it := c.see (r.heap.new .pts (rnd.prior e.nPrior)).1, weights := r.weights } : Cur d B))
            = r.cur.map fun c => { it := c.see r.heap, weights := r.weights } := by
          cases hc : r.cur with
          | none => rfl
          | some c => simp only [Option.map_some, (hr.held.cur c hc).see e1]
        simp only [Option.map_some, read_new, hsee, hcur]
      · intro p hp'
        cases hp'
        refine ⟨rfl, Nat.lt_succ_self _, ?_⟩
        simp [Heap.new]
      · intro p hp' it hit
        cases hp'
        have h1 := hr.held.hist it hit
        exact ⟨h1.1.1.ne, fun hh => absurd hh h1.2.1.1.ne⟩
      · intro p hp' it hit
        cases hp'
        have h1 := hr.held.cur it hit
        exact ⟨h1.1.1.ne, fun hh => absurd hh h1.2.1.1.ne⟩

theorem runWarmupR_sim (e : SamplerEnv d B Φ) (m : Manners d) (hm : ∀ xs, afterCall m e.like xs = xs)
    (hm' : ∀ xs, (afterCall m e.like xs).length = xs.length) (hbuf : (if e.like.vectorize then m.buffer else none) = none) (rnd : Rnd d Φ)
    (a : RunArgs) (hsv : a.saveEvery ≠ some 0) (t0 : ℕ) (r : RefSampler d B Φ) (hr : Held none r)
    (hp : r.rest.warmup = true → Placed 0 r) :
    Sim (fun r' s' => r'.see = s' ∧ Held none r' ∧ r'.rest.warmup = false)
      (runWarmupR e m rnd r) (runWarmup e rnd a t0 r.see).2 := by
  unfold runWarmupR runWarmup
  have hw : r.see.warmup = r.rest.warmup := rfl
  rw [hw]
  cases hww : r.rest.warmup with
  | false => exact ⟨rfl, hr, hww⟩
  | true =>
    simp only [if_true]
    by_cases h0 : e.nActive = 0
    · rw [if_pos h0, if_pos h0]
      exact rfl
    · rw [if_neg h0, if_neg h0]
      have hs := warmupLoopR_sim e m hm hm' hbuf rnd a.saveEvery hsv t0 (e.nPrior / e.nActive) 0 r
        (by rw [Nat.zero_mul]; exact hp hww)
      have hand : ∀ (q : Trace d B Φ) (f : Sampler d B Φ → Sampler d B Φ),
          (q.andThen fun s => ([], .ok (f s))).2 = q.2 >>= fun s => pure (f s) := by
        rintro ⟨l, (x | s)⟩ f <;> rfl
      rw [hand _ fun s => { s with warmup := false }]
      refine Sim.bind hs ?_
      rintro r' s' ⟨rfl, g1, -⟩
      exact ⟨rfl, ⟨g1.held.buffer, g1.held.prior, g1.held.hist, g1.held.cur⟩, rfl⟩

theorem runR_sim (e : SamplerEnv d B Φ) (m : Manners d) (hm : ∀ xs, afterCall m e.like xs = xs)
    (hm' : ∀ xs, (afterCall m e.like xs).length = xs.length) (hbuf : (if e.like.vectorize then m.buffer else none) = none) (rnd : Rnd d Φ)
    (fuel n : ℕ) (a : RunArgs) (hsv : a.saveEvery ≠ some 0) (r : RefSampler d B Φ) (hr : Settled r) :
    Sim (fun r' s' => r'.see = s' ∧ Settled r') (runR e m rnd fuel n a r) (run e rnd fuel n a r.see).2 := by
  unfold runR run
  have hand : ∀ (q : Trace d B Φ) (f : Sampler d B Φ → Trace d B Φ), (q.andThen f).2 = q.2 >>= fun s => (f s).2 := by
    rintro ⟨l, (x | s)⟩ f <;> rfl
  rw [lift_andThen]
  refine Sim.bind (runInitR_sim e rnd a r hr) ?_
  rintro r1 s1 ⟨rfl, g1, g2, -, -⟩
  rw [hand]
  refine Sim.bind (runWarmupR_sim e m hm hm' hbuf rnd a hsv _ r1 g1 g2) ?_
  rintro r2 s2 ⟨rfl, k1, k2⟩
  rw [hand]
  have hs := smcLoopR_sim e m rnd fuel a.saveEvery hsv r.see.t none hbuf.symm n r2 k1
  generalize hE : smcLoopR e m rnd fuel n r2 = E at hs ⊢
  generalize hV : (smcLoop e rnd fuel a.saveEvery r.see.t n r2.see).2 = V at hs ⊢
  cases E with
  | error x => cases V with
    | error y => exact hs
    | ok q => exact hs.elim
  | ok r3 => cases V with
    | error y => exact hs.elim
    | ok s3 =>
      obtain ⟨rfl, j2⟩ := hs
      have hw3 : r3.see.warmup = false := (smcLoop_warmup hsv n _ _ hV).trans k2
      simp only [okb]
      rw [lift_andThen]
      cases hF : finalEvidence e rnd r3.see with
      | error x => exact rfl
      | ok s4 =>
        obtain ⟨f1, f2, f3, f4⟩ := finalEvidence_keepR hF
        refine ⟨?_, ⟨⟨j2.held.buffer, j2.held.prior, j2.held.hist, j2.held.cur⟩, ?_⟩⟩
        · have h1 : r3.see.particles = { r3.rest.particles with past := columnsOf (r3.hist.map (RefIter.see r3.heap)) } := rfl
          have h2 : r3.see.priorSamples = r3.prior.map (r3.heap.read .pts) := rfl
          have h3 : r3.see.cur = r3.cur.map fun c => { it := c.see r3.heap, weights := r3.weights } := rfl
          unfold RefSampler.see
          simp only
          rw [← h2, ← f2, ← h3, ← f3]
          cases s4
          simp only at f1 ⊢
          subst f1
          rfl
        · intro hh
          have : s4.warmup = true := hh
          rw [f4, hw3] at this
          cases this

end Poco
