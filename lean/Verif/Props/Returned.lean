import Verif.Props.Memory
import Verif.Spec.Returned
import Verif.Props.DemoPosterior

/-! C141, C142: the arrays that `posterior` and `results` hand out. -/

namespace Poco
open F Spec

variable {d : ℕ} {B Φ : Type}

theorem noBuffer (h : Heap d B) : HasBuffer none h := fun _ hh => by cases hh

theorem live_none {h : Heap d B} {k : Kind} {v : View} : Live none h k v ↔ v.base < h.next :=
  ⟨fun hh => hh.1, fun hh => ⟨hh, fun _ hh' => by cases hh'⟩⟩

/-- Memory has grown and what was there is as before. -/
abbrev Grown (h h' : Heap d B) : Prop := Ext none h h'

/-- `v` is an array of `h'` that did not exist in `h`. -/
def NewView (h h' : Heap d B) (v : View) : Prop := h.next ≤ v.base ∧ v.base < h'.next

theorem NewView.mono {h0 h h' h'' : Heap d B} {v : View} (hv : NewView h h' v) (h1 : h0.next ≤ h.next) (h2 : h'.next ≤ h''.next) :
    NewView h0 h'' v := ⟨h1.trans hv.1, lt_of_lt_of_le hv.2 h2⟩

theorem newView_new (h : Heap d B) (k : Kind) (xs : List (Elem d B k)) : NewView h (h.new k xs).1 (h.new k xs).2 :=
  ⟨le_rfl, Nat.lt_succ_self _⟩

theorem Grown.read_new {h h' : Heap d B} {k : Kind} {xs : List (Elem d B k)} (hg : Grown (h.new k xs).1 h') :
    h'.read k (h.new k xs).2 = xs := by
  rw [Ext.read hg (live_new (noBuffer h) k xs), Poco.read_new]

theorem newBlobs_grown (h : Heap d B) (b : Option (List (List B))) : Grown h (newBlobs h b).1 := by
  cases b with
  | none => exact Ext.refl _ _
  | some b => exact Ext.new _ _ _ _

theorem newBlobs_read (h : Heap d B) (b : Option (List (List B))) :
    (newBlobs h b).2.map ((newBlobs h b).1.read .blobs) = b := by
  cases b with
  | none => rfl
  | some b => exact congrArg some (read_new h .blobs b)

theorem newBlobs_new (h : Heap d B) (b : Option (List (List B))) (v : View) (hv : (newBlobs h b).2 = some v) :
    NewView h (newBlobs h b).1 v := by
  cases b with
  | none => cases hv
  | some b => cases hv; exact newView_new h .blobs b

/-- The arrays of a `PostRefs` are new. -/
structure PostRefs.New (h h' : Heap d B) (p : PostRefs) : Prop where
  samples : NewView h h' p.samples
  weights : NewView h h' p.weights
  logw : NewView h h' p.logw
  logl : NewView h h' p.logl
  logp : NewView h h' p.logp
  blobs : ∀ v, p.blobs = some v → NewView h h' v

theorem PostRefs.New.mono {h0 h h' h'' : Heap d B} {p : PostRefs} (hp : p.New h h') (h1 : h0.next ≤ h.next) (h2 : h'.next ≤ h''.next) :
    p.New h0 h'' :=
  ⟨hp.samples.mono h1 h2, hp.weights.mono h1 h2, hp.logw.mono h1 h2, hp.logl.mono h1 h2, hp.logp.mono h1 h2,
    fun v hv => (hp.blobs v hv).mono h1 h2⟩

theorem newPost_spec (h : Heap d B) (p : Post d B) :
    Grown h (newPost h p).1 ∧ (newPost h p).2.New h (newPost h p).1 ∧ (newPost h p).2.see (newPost h p).1 = p := by
  unfold newPost
  dsimp only
  set h1 := (h.new .pts p.samples).1 with e1
  set h2 := (h1.new .nums p.weights).1 with e2
  set h3 := (h2.new .nums p.logw).1 with e3
  set h4 := (h3.new .nums p.logl).1 with e4
  set h5 := (h4.new .nums p.logp).1 with e5
  set h6 := (newBlobs h5 p.blobs).1 with e6
  have g1 : Grown h h1 := Ext.new _ _ _ _
  have g2 : Grown h1 h2 := Ext.new _ _ _ _
  have g3 : Grown h2 h3 := Ext.new _ _ _ _
  have g4 : Grown h3 h4 := Ext.new _ _ _ _
  have g5 : Grown h4 h5 := Ext.new _ _ _ _
  have g6 : Grown h5 h6 := newBlobs_grown _ _
  have b1 := g1.1; have b2 := g2.1; have b3 := g3.1; have b4 := g4.1; have b5 := g5.1; have b6 := g6.1
  refine ⟨g1.trans (g2.trans (g3.trans (g4.trans (g5.trans g6)))), ⟨?_, ?_, ?_, ?_, ?_, ?_⟩, ?_⟩
  · exact (show NewView h h1 _ from newView_new h .pts p.samples).mono le_rfl (by omega)
  · exact (show NewView h1 h2 _ from newView_new h1 .nums p.weights).mono (by omega) (by omega)
  · exact (show NewView h2 h3 _ from newView_new h2 .nums p.logw).mono (by omega) (by omega)
  · exact (show NewView h3 h4 _ from newView_new h3 .nums p.logl).mono (by omega) (by omega)
  · exact (show NewView h4 h5 _ from newView_new h4 .nums p.logp).mono (by omega) (by omega)
  · exact fun v hv => (show NewView h5 h6 v from newBlobs_new h5 p.blobs v hv).mono (by omega) (by omega)
  · unfold PostRefs.see
    have r1 : h6.read .pts (h.new .pts p.samples).2 = p.samples := Grown.read_new (g2.trans (g3.trans (g4.trans (g5.trans g6))))
    have r2 : h6.read .nums (h1.new .nums p.weights).2 = p.weights := Grown.read_new (g3.trans (g4.trans (g5.trans g6)))
    have r3 : h6.read .nums (h2.new .nums p.logw).2 = p.logw := Grown.read_new (g4.trans (g5.trans g6))
    have r4 : h6.read .nums (h3.new .nums p.logl).2 = p.logl := Grown.read_new (g5.trans g6)
    have r5 : h6.read .nums (h4.new .nums p.logp).2 = p.logp := Grown.read_new g6
    have r6 : (newBlobs h5 p.blobs).2.map (h6.read .blobs) = p.blobs := newBlobs_read h5 p.blobs
    simp only [r1, r2, r3, r4, r5, r6]

/-- What `posterior` returns in memory: the values of the value model, in new arrays. -/
theorem posteriorR_sim (e : SamplerEnv d B Φ) (us : ℕ → ℝ) (u : ℝ) (a : PostArgs) (r : RefSampler d B Φ) :
    Sim (fun q o => q.2.see q.1 = o ∧ Grown r.heap q.1 ∧ ∀ kv ∈ q.2.arrays, NewView r.heap q.1 kv.2)
      (posteriorR e us u a r) (posterior e us u a r.see) := by
  unfold posteriorR posterior
  have s1 : Sim (fun (q : Heap d B × PostRefs) p => Grown r.heap q.1 ∧ q.2.New r.heap q.1 ∧ q.2.see q.1 = p)
      (postCollectR a r) (postCollect a r.see) := by
    unfold postCollectR
    cases postCollect a r.see with
    | error x => rfl
    | ok p => exact newPost_spec r.heap p
  refine Sim.bind s1 ?_
  rintro ⟨h, p⟩ _ ⟨g1, n1, rfl⟩
  have s2 : Sim (fun (q : Heap d B × PostRefs) p => Grown r.heap q.1 ∧ q.2.New r.heap q.1 ∧ q.2.see q.1 = p)
      (postTrimR a h p) (postTrim a (p.see h)) := by
    unfold postTrimR
    by_cases ht : a.trim = true
    · rw [if_pos ht]
      cases postTrim a (p.see h) with
      | error x => rfl
      | ok p' =>
        obtain ⟨k1, k2, k3⟩ := newPost_spec h p'
        exact ⟨g1.trans k1, k2.mono g1.1 le_rfl, k3⟩
    · rw [if_neg ht]
      have : postTrim a (p.see h) = .ok (p.see h) := by unfold postTrim; rw [if_neg ht]
      rw [this]
      exact ⟨g1, n1, rfl⟩
  refine Sim.bind s2 ?_
  rintro ⟨h, p⟩ _ ⟨g1, n1, rfl⟩
  dsimp only
  unfold postReturnR
  by_cases hr : a.resample = true
  · rw [if_pos hr]
    have hw : ∀ o, postReturn e.resample us u a (p.see h) = .ok o → o.weights = none := by
      intro o ho
      unfold postReturn at ho
      rw [if_pos hr] at ho
      obtain ⟨_, -, ho⟩ := bind_ok ho
      obtain ⟨_, -, ho⟩ := bind_ok ho
      obtain ⟨_, -, ho⟩ := bind_ok ho
      obtain ⟨_, -, ho⟩ := bind_ok ho
      obtain ⟨_, -, ho⟩ := bind_ok ho
      cases ho; rfl
    cases ho : postReturn e.resample us u a (p.see h) with
    | error x => rfl
    | ok o =>
      simp only [bind, Except.bind]
      set h1 := (h.new .pts o.samples).1 with e1
      set h2 := (h1.new .nums o.logl).1 with e2
      set h3 := (h2.new .nums o.logp).1 with e3
      set h4 := (newBlobs h3 o.blobs).1 with e4
      have k1 : Grown h h1 := Ext.new _ _ _ _
      have k2 : Grown h1 h2 := Ext.new _ _ _ _
      have k3 : Grown h2 h3 := Ext.new _ _ _ _
      have k4 : Grown h3 h4 := newBlobs_grown _ _
      have b0 : r.heap.next ≤ h.next := g1.1
      have b1 := k1.1; have b2 := k2.1; have b3 := k3.1; have b4 := k4.1
      refine ⟨?_, g1.trans (k1.trans (k2.trans (k3.trans k4))), ?_⟩
      · unfold OutRefs.see
        have r1 : h4.read .pts (h.new .pts o.samples).2 = o.samples := Grown.read_new (k2.trans (k3.trans k4))
        have r2 : h4.read .nums (h1.new .nums o.logl).2 = o.logl := Grown.read_new (k3.trans k4)
        have r3 : h4.read .nums (h2.new .nums o.logp).2 = o.logp := Grown.read_new k4
        have r4 : (newBlobs h3 o.blobs).2.map (h4.read .blobs) = o.blobs := newBlobs_read h3 o.blobs
        simp only [r1, r2, r3, r4, Option.map_none]
        rw [← hw o ho]
      · intro kv hkv
        change NewView r.heap h4 kv.2
        simp only [OutRefs.arrays, Option.map_none, Option.toList_none, List.append_nil, List.mem_append, List.mem_cons,
          List.not_mem_nil, or_false, Option.mem_toList, Option.map_eq_some_iff] at hkv
        rcases hkv with (rfl | rfl | rfl) | ⟨v, hv, rfl⟩
        · exact (show NewView h h1 _ from newView_new h .pts o.samples).mono (by omega) (by omega)
        · exact (show NewView h1 h2 _ from newView_new h1 .nums o.logl).mono (by omega) (by omega)
        · exact (show NewView h2 h3 _ from newView_new h2 .nums o.logp).mono (by omega) (by omega)
        · exact (show NewView h3 h4 v from newBlobs_new h3 o.blobs v hv).mono (by omega) (by omega)
  · rw [if_neg hr]
    unfold postReturn
    rw [if_neg hr]
    refine ⟨?_, g1, ?_⟩
    · unfold OutRefs.see PostRefs.see
      simp only [Option.map_some]
      congr 2
      split_ifs <;> rfl
    · intro kv hkv
      simp only [OutRefs.arrays, Option.map_some, Option.toList_some, List.mem_append, List.mem_cons,
        List.not_mem_nil, or_false, Option.mem_toList, Option.map_eq_some_iff] at hkv
      rcases hkv with ((rfl | rfl | rfl) | rfl) | ⟨v, hv, rfl⟩
      · exact n1.samples
      · exact n1.logl
      · exact n1.logp
      · dsimp only
        split_ifs
        · exact n1.logw
        · exact n1.weights
      · exact n1.blobs v hv

/-- Scribbling on arrays that are new leaves what was there before. -/
theorem Spec.Scribbled.grown {vs : List (Kind × View)} {h h' h'' : Heap d B} (hs : Scribbled vs h' h'') (hg : Grown h h')
    (hn : ∀ kv ∈ vs, h.next ≤ kv.2.base) : Grown h h'' :=
  ⟨hg.1.trans hs.1, fun k a ha hb => (hs.2 k a (lt_of_lt_of_le ha hg.1) fun v hv he => by
    have := hn _ hv
    dsimp only at this
    omega).trans (hg.2 k a ha hb)⟩

theorem see_grown {r : RefSampler d B Φ} (hr : Held none r) {h : Heap d B} (hg : Grown r.heap h) :
    (inMemory h r).see = r.see ∧ Held none (inMemory h r) := by
  have hit : ∀ it : RefIter, it.Alive none r.heap → it.see h = it.see r.heap := by
    intro it ha
    obtain ⟨a1, a2, a3, a4, a5, a6, a7⟩ := ha
    unfold RefIter.see
    rw [hg.read a1, hg.read a2, hg.read a3, hg.read a4, hg.read a5, hg.read a6]
    cases hb : it.blobs with
    | none => rfl
    | some v => simp only [Option.map_some, hg.read (a7 v hb)]
  have hal : ∀ it : RefIter, it.Alive none r.heap → it.Alive none h := by
    intro it ha
    obtain ⟨a1, a2, a3, a4, a5, a6, a7⟩ := ha
    exact ⟨hg.live a1, hg.live a2, hg.live a3, hg.live a4, hg.live a5, hg.live a6, fun v hv => hg.live (a7 v hv)⟩
  refine ⟨?_, ⟨noBuffer _, fun p hp => hg.live (hr.prior p hp), fun it h' => hal it (hr.hist it h'), fun it h' => hal it (hr.cur it h')⟩⟩
  unfold RefSampler.see inMemory
  have e1 : r.prior.map (h.read .pts) = r.prior.map (r.heap.read .pts) := by
    cases hp : r.prior with
    | none => rfl
    | some p => simp only [Option.map_some, hg.read (hr.prior p hp)]
  have e2 : r.hist.map (RefIter.see h) = r.hist.map (RefIter.see r.heap) :=
    List.map_congr_left fun it hh => hit it (hr.hist it hh)
  have e3 : r.cur.map (fun c => ({ it := c.see h, weights := r.weights } : Cur d B)) =
      r.cur.map fun c => { it := c.see r.heap, weights := r.weights } := by
    cases hc : r.cur with
    | none => rfl
    | some c => simp only [Option.map_some, hit c (hr.cur c hc)]
  simp only [e1, e2, e3]

/-- **C141, `posterior`.** `posterior` returns what the value model says, in arrays of its own: whatever the caller writes to
them afterwards, the sampler shows the same as before the call, in every attribute. -/
theorem C141_posterior_partial (e : SamplerEnv d B Φ) (us : ℕ → ℝ) (u : ℝ) (a : PostArgs) {r : RefSampler d B Φ} (hr : Held none r)
    {h : Heap d B} {o : OutRefs} (ho : posteriorR e us u a r = .ok (h, o)) :
    posterior e us u a r.see = .ok (o.see h) ∧
      ∀ h', Scribbled o.arrays h h' → (inMemory h' r).see = r.see ∧ Held none (inMemory h' r) := by
  obtain ⟨o', h1, h2, h3, h4⟩ := (posteriorR_sim e us u a r).ok_left ho
  refine ⟨?_, fun h' hs => see_grown hr (hs.grown h3 fun kv hkv => (h4 kv hkv).1)⟩
  rw [h1]
  exact congrArg Except.ok h2.symm

/-- **C141, `posterior` and what follows.** After any number of finished runs of a likelihood without side effects, a call of
`posterior` and anything the caller does with the arrays it got: a second call of `posterior` returns the same, and further runs
end as if nothing had happened. -/
theorem C141_posterior_then_partial {e : SamplerEnv d B Φ} {m : Manners d} {hb : Bool} {s : Sampler d B Φ} (hs : Fresh e hb s) (h0 : Heap d B)
    (hp : Polite e.like m) (fuel n : ℕ) (cs cs' : List (RunArgs × Rnd d Φ)) (hc : ∀ c ∈ cs, c.1.saveEvery ≠ some 0)
    (hc' : ∀ c ∈ cs', c.1.saveEvery ≠ some 0) {r : RefSampler d B Φ} (hrun : runsInMemory e m fuel n cs (asNew h0 s) = .ok r)
    (us : ℕ → ℝ) (u : ℝ) (a : PostArgs) {h : Heap d B} {o : OutRefs} (ho : posteriorR e us u a r = .ok (h, o)) {h' : Heap d B}
    (hscr : Scribbled o.arrays h h') :
    (∀ us' u' a', posterior e us' u' a' (inMemory h' r).see = posterior e us' u' a' r.see) ∧
      (runsInMemory e m fuel n cs' (inMemory h' r)).map RefSampler.see = runs e fuel n cs' r.see := by
  obtain ⟨s', -, -, hset⟩ := (runs_sim (m := m) hp fuel n cs (asNew h0 s) hc (settled_new h0 hs)).ok_left hrun
  obtain ⟨k1, k2⟩ := (C141_posterior_partial e us u a hset.held ho).2 h' hscr
  refine ⟨fun us' u' a' => by rw [k1], ?_⟩
  have hset' : Settled (inMemory h' r) := ⟨k2, hset.fresh⟩
  rw [(runs_sim (m := m) hp fuel n cs' (inMemory h' r) hc' hset').map_eq (f := RefSampler.see) fun _ _ hh => hh.1, k1]

/-! ### results -/

theorem copyIter_spec (h : Heap d B) (r : RefIter) :
    Grown h (copyIter h r).1 ∧ (∀ kv ∈ (copyIter h r).2.arrays, NewView h (copyIter h r).1 kv.2) ∧
      (copyIter h r).2.see (copyIter h r).1 = r.see h ∧ (copyIter h r).2.Alive none (copyIter h r).1 := by
  unfold copyIter
  dsimp only
  set it := r.see h with eit
  set h1 := (h.new .pts it.u).1 with e1
  set h2 := (h1.new .pts it.x).1 with e2
  set h3 := (h2.new .nums it.logdetj).1 with e3
  set h4 := (h3.new .nums it.logl).1 with e4
  set h5 := (h4.new .nums it.logp).1 with e5
  set h6 := (h5.new .nums it.logw).1 with e6
  set h7 := (newBlobs h6 it.blobs).1 with e7
  have g1 : Grown h h1 := Ext.new _ _ _ _
  have g2 : Grown h1 h2 := Ext.new _ _ _ _
  have g3 : Grown h2 h3 := Ext.new _ _ _ _
  have g4 : Grown h3 h4 := Ext.new _ _ _ _
  have g5 : Grown h4 h5 := Ext.new _ _ _ _
  have g6 : Grown h5 h6 := Ext.new _ _ _ _
  have g7 : Grown h6 h7 := newBlobs_grown _ _
  have b1 := g1.1; have b2 := g2.1; have b3 := g3.1; have b4 := g4.1; have b5 := g5.1; have b6 := g6.1; have b7 := g7.1
  have n1 : NewView h h7 (h.new .pts it.u).2 := (show NewView h h1 _ from newView_new h .pts it.u).mono (by omega) (by omega)
  have n2 : NewView h h7 (h1.new .pts it.x).2 := (show NewView h1 h2 _ from newView_new h1 .pts it.x).mono (by omega) (by omega)
  have n3 : NewView h h7 (h2.new .nums it.logdetj).2 := (show NewView h2 h3 _ from newView_new h2 .nums it.logdetj).mono (by omega) (by omega)
  have n4 : NewView h h7 (h3.new .nums it.logl).2 := (show NewView h3 h4 _ from newView_new h3 .nums it.logl).mono (by omega) (by omega)
  have n5 : NewView h h7 (h4.new .nums it.logp).2 := (show NewView h4 h5 _ from newView_new h4 .nums it.logp).mono (by omega) (by omega)
  have n6 : NewView h h7 (h5.new .nums it.logw).2 := (show NewView h5 h6 _ from newView_new h5 .nums it.logw).mono (by omega) (by omega)
  have n7 : ∀ v, (newBlobs h6 it.blobs).2 = some v → NewView h h7 v := fun v hv => (show NewView h6 h7 v from newBlobs_new h6 it.blobs v hv).mono (by omega) (by omega)
  refine ⟨g1.trans (g2.trans (g3.trans (g4.trans (g5.trans (g6.trans g7))))), ?_, ?_, ?_⟩
  · intro kv hkv
    simp only [RefIter.arrays, List.mem_append, List.mem_cons, List.not_mem_nil, or_false, Option.mem_toList,
      Option.map_eq_some_iff] at hkv
    rcases hkv with (rfl | rfl | rfl | rfl | rfl | rfl) | ⟨v, hv, rfl⟩
    exacts [n1, n2, n3, n4, n5, n6, n7 v hv]
  · have r1 : h7.read .pts (h.new .pts it.u).2 = it.u := Grown.read_new (g2.trans (g3.trans (g4.trans (g5.trans (g6.trans g7)))))
    have r2 : h7.read .pts (h1.new .pts it.x).2 = it.x := Grown.read_new (g3.trans (g4.trans (g5.trans (g6.trans g7))))
    have r3 : h7.read .nums (h2.new .nums it.logdetj).2 = it.logdetj := Grown.read_new (g4.trans (g5.trans (g6.trans g7)))
    have r4 : h7.read .nums (h3.new .nums it.logl).2 = it.logl := Grown.read_new (g5.trans (g6.trans g7))
    have r5 : h7.read .nums (h4.new .nums it.logp).2 = it.logp := Grown.read_new (g6.trans g7)
    have r6 : h7.read .nums (h5.new .nums it.logw).2 = it.logw := Grown.read_new g7
    have r7 : (newBlobs h6 it.blobs).2.map (h7.read .blobs) = it.blobs := newBlobs_read h6 it.blobs
    conv_lhs => unfold RefIter.see
    simp only [r1, r2, r3, r4, r5, r6, r7]
    rw [eit]
    rfl
  · exact ⟨live_none.2 n1.2, live_none.2 n2.2, live_none.2 n3.2, live_none.2 n4.2, live_none.2 n5.2, live_none.2 n6.2,
      fun v hv => live_none.2 (n7 v hv).2⟩

theorem see_iter_grown {h h' : Heap d B} (hg : Grown h h') {it : RefIter} (ha : it.Alive none h) : it.see h' = it.see h := by
  obtain ⟨a1, a2, a3, a4, a5, a6, a7⟩ := ha
  unfold RefIter.see
  rw [hg.read a1, hg.read a2, hg.read a3, hg.read a4, hg.read a5, hg.read a6]
  cases hb : it.blobs with
  | none => rfl
  | some v => simp only [Option.map_some, hg.read (a7 v hb)]

theorem alive_grown {h h' : Heap d B} (hg : Grown h h') {it : RefIter} (ha : it.Alive none h) : it.Alive none h' := by
  obtain ⟨a1, a2, a3, a4, a5, a6, a7⟩ := ha
  exact ⟨hg.live a1, hg.live a2, hg.live a3, hg.live a4, hg.live a5, hg.live a6, fun v hv => hg.live (a7 v hv)⟩

theorem copyHist_spec : ∀ (rs : List RefIter) (h : Heap d B), (∀ it ∈ rs, it.Alive none h) →
    Grown h (copyHist h rs).1 ∧ (∀ kv ∈ (copyHist h rs).2.flatMap RefIter.arrays, NewView h (copyHist h rs).1 kv.2) ∧
      (copyHist h rs).2.map (RefIter.see (copyHist h rs).1) = rs.map (RefIter.see h) ∧
      ∀ it ∈ (copyHist h rs).2, it.Alive none (copyHist h rs).1 := by
  intro rs
  induction rs with
  | nil => intro h _; exact ⟨Ext.refl _ _, by simp [copyHist], rfl, by simp [copyHist]⟩
  | cons r rs ih =>
    intro h hal
    obtain ⟨g1, n1, s1, l1⟩ := copyIter_spec h r
    obtain ⟨g2, n2, s2, l2⟩ := ih (copyIter h r).1 fun it hit => alive_grown g1 (hal it (by simp [hit]))
    simp only [copyHist]
    refine ⟨g1.trans g2, ?_, ?_, ?_⟩
    · intro kv hkv
      rw [List.flatMap_cons, List.mem_append] at hkv
      rcases hkv with hkv | hkv
      · exact (n1 kv hkv).mono le_rfl g2.1
      · exact (n2 kv hkv).mono g1.1 le_rfl
    · rw [List.map_cons, s2, see_iter_grown g2 l1, s1, List.map_cons]
      congr 1
      exact List.map_congr_left fun it hit => see_iter_grown g1 (hal it (by simp [hit]))
    · intro it hit
      rcases List.mem_cons.1 hit with rfl | hit
      · exact alive_grown g2 l1
      · exact l2 it hit

/-- **C141, `results`, the history.** The first access to `results` gives copies of the stored iterations and the normalised
log-weights; whatever the caller writes to them, the sampler shows the same as before: history, evidence, weights. -/
theorem C141_results_partial {r : RefSampler d B Φ} (hr : Held none r) {h : Heap d B} {cache : Option ResRefs} {c : ResRefs}
    (hc : resultsR r none = (h, cache, .ok c)) :
    (resultsShow h c).1 = shown r ∧ (∃ lw z, (resultsShow h c).2 = some lw ∧ computeLogwLogz r.see.particles.past (fin 1) = .ok (lw, z)) ∧
      ∀ h', Scribbled c.arrays h h' → (inMemory h' r).see = r.see ∧ Held none (inMemory h' r) := by
  unfold resultsR at hc
  dsimp only at hc
  obtain ⟨g1, n1, s1, l1⟩ := copyHist_spec r.hist r.heap hr.hist
  cases hw : computeLogwLogz r.see.particles.past (fin 1) with
  | error x => rw [hw] at hc; simp at hc
  | ok q =>
    obtain ⟨lw, z⟩ := q
    rw [hw] at hc
    simp only [Prod.mk.injEq, Except.ok.injEq] at hc
    obtain ⟨rfl, -, rfl⟩ := hc
    set h1 := (copyHist r.heap r.hist).1 with e1
    have g2 : Grown h1 (h1.new .nums lw).1 := Ext.new _ _ _ _
    refine ⟨?_, ⟨lw, z, ?_, rfl⟩, fun h' hs => see_grown hr (hs.grown (g1.trans g2) ?_)⟩
    · unfold resultsShow shown
      dsimp only
      rw [← s1]
      exact List.map_congr_left fun it hit => see_iter_grown g2 (l1 it hit)
    · unfold resultsShow
      dsimp only
      rw [Option.map_some, read_new]
    · intro kv hkv
      unfold ResRefs.arrays at hkv
      simp only [List.mem_append, Option.map_some, Option.toList_some, List.mem_cons, List.not_mem_nil, or_false] at hkv
      rcases hkv with hkv | rfl
      · exact (n1 kv hkv).1
      · exact g1.1

/-- **C141 fails for `results`.** The dictionary is kept and handed out again: a caller who overwrites the log-weights in it sees
what it wrote at the next access, although the sampler's own data are as before. -/
theorem C141_results_shared {r : RefSampler d B Φ} (hr : Held none r) {h : Heap d B} {cache : Option ResRefs} {c : ResRefs}
    (hc : resultsR r none = (h, cache, .ok c)) : ∃ lw, (resultsShow h c).2 = some lw ∧
      ∀ junk : List F, junk.length = lw.length → ∃ h', Scribbled c.arrays h h' ∧ (inMemory h' r).see = r.see ∧
        ∃ c', (resultsR (inMemory h' r) cache).2.2 = .ok c' ∧ (resultsShow (resultsR (inMemory h' r) cache).1 c').2 = some junk := by
  obtain ⟨-, ⟨lw, z, k1, k2⟩, k3⟩ := C141_results_partial hr hc
  have hcache : cache = some c := by
    unfold resultsR at hc
    dsimp only at hc
    rw [k2] at hc
    simp only [Prod.mk.injEq, Except.ok.injEq] at hc
    rw [← hc.2.1, ← hc.2.2]
  obtain ⟨v, hv, hlw⟩ : ∃ v, c.logw = some v ∧ h.read .nums v = lw := by
    unfold resultsShow at k1
    dsimp only at k1
    cases hv : c.logw with
    | none => rw [hv] at k1; cases k1
    | some v => rw [hv, Option.map_some, Option.some_inj] at k1; exact ⟨v, rfl, k1⟩
  have hvs : v.start = 0 ∧ v.len = lw.length := by
    unfold resultsR at hc
    dsimp only at hc
    rw [k2] at hc
    simp only [Prod.mk.injEq, Except.ok.injEq] at hc
    obtain ⟨-, -, rfl⟩ := hc
    simp only [Option.some_inj] at hv
    subst hv
    exact ⟨rfl, rfl⟩
  refine ⟨lw, k1, fun junk hj => ?_⟩
  have hs : Scribbled c.arrays h (h.write .nums v junk) := by
    refine ⟨le_rfl, fun k a ha hne => write_mem h .nums v junk k a fun hk he => ?_⟩
    subst hk
    refine hne v ?_ he.symm
    unfold ResRefs.arrays
    simp [hv]
  refine ⟨h.write .nums v junk, hs, (k3 _ hs).1, c, ?_, ?_⟩
  · rw [hcache]; rfl
  · rw [hcache]
    unfold resultsShow
    dsimp only [resultsR, inMemory]
    rw [hv, Option.map_some, read_write_self _ _ _ _ (by rw [hvs.1]; exact Nat.zero_le _) (by rw [hj, hvs.2])]

/-- **C142 fails.** `results` before anything has been stored raises, and yet fills the cache: from then on every access, after
any runs, succeeds and shows an empty history. -/
theorem C142_too_early {r : RefSampler d B Φ} (hr : r.hist = []) :
    ∃ h cache, resultsR r none = (h, cache, .error .valueError) ∧
      ∀ r' : RefSampler d B Φ, ∃ c, resultsR r' cache = (r'.heap, cache, .ok c) ∧ ∀ h', resultsShow (d := d) (B := B) h' c = ([], none) := by
  refine ⟨r.heap, some ⟨[], none⟩, ?_, fun r' => ⟨⟨[], none⟩, rfl, fun h' => rfl⟩⟩
  have hw : computeLogwLogz r.see.particles.past (fin 1) = .error .valueError := by
    unfold computeLogwLogz RefSampler.see columnsOf
    simp [hr]
  unfold resultsR
  dsimp only
  rw [hw, hr]
  rfl

/-- **C142, afterwards.** In every state with a whole history an access to `results` returns, so the cache is filled with the
history as it is then, complete with the log-weights.  Missing: an access before the first run (`C142_too_early`). -/
theorem C142_with_history_partial {r : RefSampler d B Φ} (hr : Held none r) {n : ℕ} (hne : r.hist ≠ [])
    (hrect : ∀ it ∈ shown r, List.length it.logl = n) :
    ∃ h c, resultsR r none = (h, some c, .ok c) ∧ (resultsShow h c).1 = shown r ∧
      ∃ lw z, (resultsShow h c).2 = some lw ∧ computeLogwLogz r.see.particles.past (fin 1) = .ok (lw, z) ∧ lw.length = n * r.hist.length := by
  have hsn : shown r ≠ [] := by unfold shown; simpa using hne
  obtain ⟨lw, z, hw, hl⟩ : ∃ lw z, computeLogwLogz r.see.particles.past (fin 1) = .ok (lw, z) ∧ lw.length = n * r.hist.length := by
    have e1 : r.see.particles.past = columnsOf (shown r) := rfl
    rw [e1]
    have h1 : ((columnsOf (shown r)).logl.any fun row => decide (row.length ≠ ((columnsOf (shown r)).logl.headD []).length)) = false := by
      rw [List.any_eq_false]
      intro row hrow
      obtain ⟨it, hit, rfl⟩ := List.mem_map.1 hrow
      have : List.length ((columnsOf (shown r)).logl.headD []) = n := by
        cases hsr : shown r with
        | nil => exact absurd hsr hsn
        | cons a l => exact hrect a (by rw [hsr]; simp)
      rw [this]
      simp [hrect it hit]
    have h2 : ¬ (columnsOf (shown r)).logz.length < (columnsOf (shown r)).beta.length := by simp [columnsOf]
    have h3 : (columnsOf (shown r)).logl ≠ [] := by simpa [columnsOf] using hsn
    unfold computeLogwLogz
    rw [h1, if_neg (by simp), if_neg h2, if_neg h3]
    refine ⟨_, _, rfl, ?_⟩
    simp only [if_true, List.length_map]
    have : ∀ l : List (Iter d (List B)), (∀ it ∈ l, List.length it.logl = n) → (columnsOf l).logl.flatten.length = n * l.length := by
      intro l
      induction l with
      | nil => intro _; rfl
      | cons a l ih =>
        intro hh
        have := ih fun it hit => hh it (by simp [hit])
        simp only [columnsOf, List.map_cons, List.flatten_cons, List.length_append, List.length_cons] at this ⊢
        rw [this, hh a (by simp)]
        ring
    rw [this _ hrect]
    simp [shown]
  have hres : resultsR r none = (((copyHist r.heap r.hist).1.new .nums lw).1,
      some ⟨(copyHist r.heap r.hist).2, some ((copyHist r.heap r.hist).1.new .nums lw).2⟩,
      .ok ⟨(copyHist r.heap r.hist).2, some ((copyHist r.heap r.hist).1.new .nums lw).2⟩) := by
    unfold resultsR
    dsimp only
    rw [hw]
  obtain ⟨k1, ⟨lw', z', k2, k3⟩, -⟩ := C141_results_partial hr hres
  rw [hw] at k3
  cases k3
  exact ⟨_, _, hres, k1, lw, z, k2, hw, hl⟩

namespace Demo

/-- A run in memory that returns; `posterior` then returns six rows with blobs. -/
theorem posterior_in_memory : ∃ (r : RefSampler 2 Unit Unit) (h : Heap 2 Unit) (o : OutRefs),
    runsInMemory (env true) ⟨fun x => x, fun _ => [], none⟩ 0 1 [(args 0, rnd)] (asNew memory start) = .ok r ∧ Held none r ∧
      (shown r).length = 3 ∧ (∀ it ∈ shown r, List.length it.logl = 2) ∧
      posteriorR (env true) (fun _ => 0) 0 { PostArgs.default with trim := false, returnBlobs := true } r = .ok (h, o) ∧
      o.arrays.length = 5 := by
  obtain ⟨r, h1, h2, h3⟩ := polite_run true
  have hrun : (run (env true) rnd 0 1 (args 0) start).2 = .ok r.see := by
    have hp : Polite (env true).like (⟨fun x => x, fun _ => [], none⟩ : Manners 2) := by
      unfold Polite
      rw [if_neg (by simp [env, like])]
      exact .inr fun _ => rfl
    have := C112_polite_partial (fresh true) memory hp 0 1 [(args 0, rnd)] (fun c hc => by rw [List.mem_singleton.1 hc]; simp [args])
    rw [h1] at this
    unfold runs at this
    cases hq : (run (env true) rnd 0 1 (args 0) start).2 with
    | error x => rw [hq] at this; cases this
    | ok s' =>
      rw [hq] at this
      exact this.symm
  have hs : Session (env true) true r.see := .ran rnd 0 1 (args 0) (.fresh (fresh true)) draws hrun
  have hne : r.see.particles.past.x ≠ [] := by
    intro h
    have := congrArg List.length h
    change ((shown r).map _).length = _ at this
    rw [List.length_map, h2] at this
    simp at this
  obtain ⟨H, all, kept, rows, ls, out, k1, k2, k3, k4, k5, k6, k7, k8, k9, k10, k11, k12, k13, k14, k15⟩ := C61_posterior (user true) proper
    (configured true) hs hne (fun _ => 0) (by simp) 0 le_rfl one_pos { PostArgs.default with trim := false, returnBlobs := true }
    (fun h => by cases h) (fun _ => rfl)
  have hsim := posteriorR_sim (env true) (fun _ => 0) 0 { PostArgs.default with trim := false, returnBlobs := true } r
  rw [k8] at hsim
  cases hq : posteriorR (env true) (fun _ => 0) 0 { PostArgs.default with trim := false, returnBlobs := true } r with
  | error x => rw [hq] at hsim; exact hsim.elim
  | ok q =>
    obtain ⟨h, o⟩ := q
    rw [hq] at hsim
    obtain ⟨rfl, -, -⟩ := hsim
    refine ⟨r, h, o, h1, h3, h2, ?_, hq, ?_⟩
    · obtain ⟨its, i1, i2⟩ := C29_run (user true) (configured true) hs
      intro it hit
      have hl : it.logl ∈ r.see.particles.past.logl := List.mem_map_of_mem (f := fun i : Iter 2 (List Unit) => i.logl) hit
      rw [i1] at hl
      obtain ⟨it', hit', he⟩ := List.mem_map.1 hl
      obtain ⟨rws, r1, r2, -⟩ := i2 it' hit'
      rw [← he, r2.logl, List.length_map, r1]
      rfl
    · obtain ⟨w1, -⟩ := k14 rfl rfl
      have hw : o.weights.isSome = true := by
        have := congrArg Option.isSome w1
        simpa [OutRefs.see] using this
      have hb : o.blobs.isSome = true := by
        have := congrArg Option.isSome k12
        simpa [OutRefs.see] using this
      obtain ⟨w, hw⟩ := Option.isSome_iff_exists.1 hw
      obtain ⟨b, hb⟩ := Option.isSome_iff_exists.1 hb
      simp [OutRefs.arrays, hw, hb]

/-- The caller sorts, standardises, overwrites with zeros … : the sampler keeps its history, a second call returns the same, and
asking for more samples ends as it would have. -/
example : ∃ (r : RefSampler 2 Unit Unit) (h : Heap 2 Unit) (o : OutRefs), (shown r).length = 3 ∧
    ∀ h', Scribbled o.arrays h h' → (inMemory h' r).see = r.see ∧
      (runsInMemory (env true) ⟨fun x => x, fun _ => [], none⟩ 0 1 [(⟨8, 0, none⟩, rnd)] (inMemory h' r)).map RefSampler.see
        = runs (env true) 0 1 [(⟨8, 0, none⟩, rnd)] r.see := by
  obtain ⟨r, h, o, h1, h2, h3, -, h4, -⟩ := posterior_in_memory
  have hp : Polite (env true).like (⟨fun x => x, fun _ => [], none⟩ : Manners 2) := by
    unfold Polite
    rw [if_neg (by simp [env, like])]
    exact .inr fun _ => rfl
  refine ⟨r, h, o, h3, fun h' hs => ⟨((C141_posterior_partial _ _ _ _ h2 h4).2 h' hs).1, ?_⟩⟩
  exact (C141_posterior_then_partial (fresh true) memory hp 0 1 [(args 0, rnd)] [(⟨8, 0, none⟩, rnd)]
    (fun c hc => by rw [List.mem_singleton.1 hc]; simp [args]) (fun c hc => by rw [List.mem_singleton.1 hc]; simp)
    h1 _ _ _ h4 hs).2

/-- The first access to `results` after that run returns six log-weights; a caller who sets them to zero sees zeros at the next
access. -/
example : ∃ (r : RefSampler 2 Unit Unit) (h : Heap 2 Unit) (c : ResRefs), resultsR r none = (h, some c, .ok c) ∧ (resultsShow h c).1 = shown r ∧
    (shown r).length = 3 ∧ ∃ h', (inMemory h' r).see = r.see ∧
      (resultsShow (resultsR (inMemory h' r) (some c)).1 c).2 = some (List.replicate 6 (fin 0)) := by
  obtain ⟨r, -, -, -, h2, h3, h4, -⟩ := posterior_in_memory
  have h3' : r.hist.length = 3 := by simpa [shown] using h3
  obtain ⟨h, c, k1, k2, lw, z, k3, k4, k5⟩ := C142_with_history_partial h2 (n := 2) (by intro hh; rw [hh] at h3'; simp at h3') h4
  obtain ⟨lw', j1, j2⟩ := C141_results_shared h2 k1
  rw [k3, Option.some_inj] at j1
  subst j1
  obtain ⟨h', -, j3, c', j4, j5⟩ := j2 (List.replicate 6 (fin 0)) (by rw [k5, h3']; simp)
  refine ⟨r, h, c, k1, k2, h3, h', j3, ?_⟩
  have : c = c' := by simpa [resultsR] using j4
  subst this
  exact j5

/-- `results` on a new sampler raises, and after the run it shows nothing. -/
example : ∃ (r : RefSampler 2 Unit Unit) (h : Heap 2 Unit) (cache : Option ResRefs), (shown r).length = 3 ∧
    resultsR (asNew memory start) none = (h, cache, .error .valueError) ∧
      ∃ c, (resultsR r cache).2.2 = .ok c ∧ (resultsShow r.heap c).1 = [] := by
  obtain ⟨r, -, -, -, -, h3, -⟩ := posterior_in_memory
  obtain ⟨h, cache, k1, k2⟩ := C142_too_early (r := asNew memory start) rfl
  obtain ⟨c, j1, j2⟩ := k2 r
  exact ⟨r, h, cache, h3, k1, c, by rw [j1], by rw [j2]⟩

end Demo

end Poco
