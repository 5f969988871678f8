import Verif.Lemmas.StreamKeep
import Verif.Props.Demo

/-! C116: what is proved for all draws holds for the draws of any generator.  C117: what `random_state` fixes. -/

namespace Poco
open F Spec

variable {d : ℕ} {B Φ W : Type} {gen : Gen d Φ W} {low high : Fin d → F}

/-- **C116.** Whatever the generators and their state, there are draws — each of them a value the generators return — with
which the run of `Model/Sampler` writes the same files and returns the same sampler or raises the same exception. The draws
meet the condition `Draws` under which the theorems about runs are proved. -/
theorem C116_every_generator (hg : Generates gen low high) (e : SamplerEnv d B Φ) (fuel n : ℕ) (a : RunArgs) (s : Sampler d B Φ) (w : W) :
    ∃ rnd : Rnd d Φ, Returned gen rnd ∧ Draws low high rnd ∧ (∀ m, rnd.prior m = (gen.prior m w).1) ∧
      run e rnd fuel n a s = Outcome (runG gen e fuel n a s w) := by
  obtain ⟨r, h1, h2, h3⟩ := run_stream hg e fuel n a s w (baseline gen w) rfl
  have hr := h1.returned hg
  exact ⟨r, hr, hr.draws hg, fun m => by rw [h2]; rfl, h3⟩

/-- The condition under which runs are proved to return, for the draws of a generator. -/
theorem C116_reliable (hg : Generates gen low high) {e : SamplerEnv d B Φ} {rnd rnd' : Rnd d Φ} (hr : Returned gen rnd) (he : Reliable e rnd')
    (hfit : ∀ φ us ws w, ∃ v, gen.flowFit φ us ws w = .ok v) (hgeo : ∀ us ws w, ∃ v, gen.geoFit us ws w = .ok v) : Reliable e rnd where
  geo t us ws := by
    obtain ⟨w, hw⟩ := hr.geoFit t us ws
    obtain ⟨v, hv⟩ := hgeo us ws w
    exact ⟨v.1, by rw [hw, hv]; rfl⟩
  flow t φ us ws := by
    obtain ⟨w, hw⟩ := hr.flowFit t φ us ws
    obtain ⟨v, hv⟩ := hfit φ us ws w
    exact ⟨v.1, by rw [hw, hv]; rfl⟩
  inv := he.inv
  chol := he.chol
  dim := he.dim
  freq := he.freq
  ratio := he.ratio
  mult t k := by
    obtain ⟨n, w, hw⟩ := hr.mult t k
    exact (hg.uniform n w).2 _ hw
  syst t := by
    obtain ⟨n, w, hw⟩ := hr.syst t
    exact (hg.uniform n w).2 _ hw

/-- **C116**, sessions: every state a sampler reaches with generators, in any number of runs, with state files loaded and
other code drawing in between, is a state of a session. -/
theorem C116_sessions (hg : Generates gen low high) {e : SamplerEnv d B Φ} {ll lp : Pt d → F} {bb : Pt d → List B} {hb : Bool}
    (hu : UserFns e ll lp bb hb) (hc : Configured e) {w : W} {s : Sampler d B Φ} (h : SessionG gen e hb low high w s) : Session e hb s := by
  suffices Session e hb s ∧ s.scaler.low = low ∧ s.scaler.high = high from this.1
  induction h with
  | fresh w h h1 h2 => exact ⟨.fresh h, h1, h2⟩
  | other w' _ ih => exact ih
  | @ran s s' w w' fuel n a _ hr ih =>
    obtain ⟨k1, k2, k3⟩ := ih
    obtain ⟨rnd, -, hd, -, he⟩ := C116_every_generator hg e fuel n a s w
    have hd' : Draws s.scaler.low s.scaler.high rnd := by rw [k2, k3]; exact hd
    have ho : (run e rnd fuel n a s).2 = .ok s' := by
      rw [he]
      change (runG gen e fuel n a s w).2.map Prod.fst = _
      rw [hr]
      rfl
    obtain ⟨its, hi⟩ := k1.inv hu hc (ll := ll) (lp := lp) (bb := bb)
    obtain ⟨more, -, m1, m2⟩ := hi.moves hu hc hd' ((Along.run fuel n a s).to_end _ ho).1
    exact ⟨.ran rnd fuel n a k1 hd' ho, m1.trans k2, m2.trans k3⟩
  | @loaded s w fuel n a sv w' _ hr ih =>
    obtain ⟨k1, k2, k3⟩ := ih
    obtain ⟨rnd, -, hd, -, he⟩ := C116_every_generator hg e fuel n a s w
    have hd' : Draws s.scaler.low s.scaler.high rnd := by rw [k2, k3]; exact hd
    have ho : sv ∈ (run e rnd fuel n a s).1 := by rw [he]; exact hr
    obtain ⟨its, hi⟩ := k1.inv hu hc (ll := ll) (lp := lp) (bb := bb)
    obtain ⟨more, -, m1, m2⟩ := hi.moves hu hc hd' ((Along.run fuel n a s).from_start sv ho)
    exact ⟨.loaded rnd fuel n a sv k1 hd' ho, m1.trans k2, m2.trans k3⟩

theorem exec_append (cs ds : List (Act d B Φ W)) : ∀ p, exec gen (cs ++ ds) p = exec gen cs p >>= exec gen ds := by
  induction cs with
  | nil => intro p; rfl
  | cons c cs ih =>
    intro p
    change (c.step gen p >>= fun q => exec gen (cs ++ ds) q) = ((c.step gen p >>= fun q => exec gen cs q) >>= exec gen ds)
    cases c.step gen p with
    | error x => rfl
    | ok q => exact ih q

theorem exec_build (i : ℕ) (rs : Option ℕ) (make : Φ → Sampler d B Φ) (cs : List (Act d B Φ W)) (p : Process d B Φ W) :
    exec gen (.build i rs make :: cs) p = exec gen cs ⟨Function.update p.var i (some (buildG gen rs make p.rng).1), (buildG gen rs make p.rng).2⟩ := rfl

theorem exec_run {i : ℕ} {e : SamplerEnv d B Φ} {fuel n : ℕ} {a : RunArgs} {cs : List (Act d B Φ W)} {p : Process d B Φ W} {s : Sampler d B Φ}
    {r : Sampler d B Φ × W} (h : p.var i = some s) (hr : (runG gen e fuel n a s p.rng).2 = .ok r) :
    exec gen (.run i e fuel n a :: cs) p = exec gen cs ⟨Function.update p.var i (some r.1), r.2⟩ := by
  change ((orErr .keyError (p.var i) >>= fun s => (runG gen e fuel n a s p.rng).2 >>= fun r => pure (⟨Function.update p.var i (some r.1), r.2⟩ : Process d B Φ W))
    >>= fun q => exec gen cs q) = _
  rw [h]
  change (((runG gen e fuel n a s p.rng).2 >>= _) >>= _) = _
  rw [hr]
  rfl

/-- Runs of one sampler see only this sampler and the generators. -/
theorem exec_runs {i : ℕ} {cs : List (Act d B Φ W)} (hcs : ∀ c ∈ cs, ∃ e fuel n a, c = .run i e fuel n a) : ∀ p p' : Process d B Φ W,
    p.rng = p'.rng → p.var i = p'.var i → (exec gen cs p).map (fun q => (q.var i, q.rng)) = (exec gen cs p').map (fun q => (q.var i, q.rng)) := by
  induction cs with
  | nil => intro p p' h1 h2; change Except.ok (p.var i, p.rng) = Except.ok (p'.var i, p'.rng); rw [h1, h2]
  | cons c cs ih =>
    intro p p' h1 h2
    obtain ⟨e, fuel, n, a, rfl⟩ := hcs _ List.mem_cons_self
    have ih := ih fun c hc => hcs c (List.mem_cons_of_mem _ hc)
    change Except.map _ (((orErr .keyError (p.var i) >>= fun s => (runG gen e fuel n a s p.rng).2 >>= fun r =>
        pure (⟨Function.update p.var i (some r.1), r.2⟩ : Process d B Φ W)) >>= fun q => exec gen cs q)) =
      Except.map _ (((orErr .keyError (p'.var i) >>= fun s => (runG gen e fuel n a s p'.rng).2 >>= fun r =>
        pure (⟨Function.update p'.var i (some r.1), r.2⟩ : Process d B Φ W)) >>= fun q => exec gen cs q))
    rw [h1, h2]
    cases p'.var i with
    | none => rfl
    | some s =>
      change Except.map _ (((runG gen e fuel n a s p'.rng).2 >>= _) >>= _) = Except.map _ (((runG gen e fuel n a s p'.rng).2 >>= _) >>= _)
      cases (runG gen e fuel n a s p'.rng).2 with
      | error x => rfl
      | ok r => exact ih _ _ rfl (by simp)

/-- **C117**, the part that holds. Whatever happened before in two processes: if both then build a sampler with
`random_state=seed` and at once run it any number of times, with the same arguments and nothing else in between, the two
samplers end with the same contents, or the same exception is raised.
Missing: the seed is given to the generators of the process, not kept in the sampler, so other code between the
construction and the runs changes the results: `C117_second_sampler`, `C117_interleaved`. -/
theorem C117_reproducible_partial (gen : Gen d Φ W) (before before' : List (Act d B Φ W)) (start start' p p' : Process d B Φ W) (i seed : ℕ)
    (make : Φ → Sampler d B Φ) (runs : List (Act d B Φ W)) (hruns : ∀ c ∈ runs, ∃ e fuel n a, c = .run i e fuel n a)
    (h : exec gen before start = .ok p) (h' : exec gen before' start' = .ok p') :
    (exec gen (before ++ .build i (some seed) make :: runs) start).map (fun q => q.var i) =
      (exec gen (before' ++ .build i (some seed) make :: runs) start').map (fun q => q.var i) := by
  rw [exec_append, exec_append, h, h']
  have := exec_runs (gen := gen) hruns ⟨Function.update p.var i (some (buildG gen (some seed) make p.rng).1), (buildG gen (some seed) make p.rng).2⟩
    ⟨Function.update p'.var i (some (buildG gen (some seed) make p'.rng).1), (buildG gen (some seed) make p'.rng).2⟩ rfl (by simp [buildG])
  change (exec gen runs _).map _ = (exec gen runs _).map _
  have key : ∀ x y : Except PyErr (Process d B Φ W), x.map (fun q => (q.var i, q.rng)) = y.map (fun q => (q.var i, q.rng)) →
      x.map (fun q => q.var i) = y.map (fun q => q.var i) := by
    intro x y hxy
    cases x <;> cases y
    · simpa [Except.map] using hxy
    · simp [Except.map] at hxy
    · simp [Except.map] at hxy
    · simp only [Except.map, Except.ok.injEq, Prod.mk.injEq] at hxy ⊢
      exact hxy.1
  exact key _ _ this

namespace Demo

/-- Generators that count the calls; the prior samples depend on the count. -/
noncomputable def counter : Gen 2 Unit ℕ where
  seed n := n
  newFlow w := ((), w + 1)
  prior n w := ((List.range n).map fun (k : ℕ) => pt fun _ => ((w + k : ℕ) : ℝ), w + 1)
  ints _ m w := (List.replicate m 0, w + 1)
  uniform m w := (List.replicate m 0, w + 1)
  gamma _ _ w := (fin 1, w + 1)
  randn w := (fun _ => fin 0.1, w + 1)
  flowFit _ _ _ w := .ok ((), w + 1)
  geoFit _ _ w := .ok (geo, w + 1)
  flowSample _ n w := (List.replicate n (pt fun _ => 0, fin 0), w + 1)

theorem generates : Generates counter start.scaler.low start.scaler.high where
  prior n w := by
    refine ⟨(List.range n).map fun (k : ℕ) _ => ((w + k : ℕ) : ℝ), by simp [counter], by simp, ?_, fun hn i => ?_⟩
    · intro x _ i
      simp [start, Scaler.init]
    · exact ⟨fun _ => ((w + 0 : ℕ) : ℝ), List.mem_map.mpr ⟨0, List.mem_range.mpr (by omega), rfl⟩, fun _ => ((w + 1 : ℕ) : ℝ),
        List.mem_map.mpr ⟨1, List.mem_range.mpr (by omega), rfl⟩, by simp⟩
  ints n m w := ⟨by simp [counter], fun hn k hm => by have := List.eq_of_mem_replicate hm; omega⟩
  uniform m w := ⟨by simp [counter], fun u hu => by rw [List.eq_of_mem_replicate hu]; norm_num⟩
  flowSample _ n w := by simp [counter]

theorem keeps (v : ℕ) : KeepsG counter (v ≤ ·) where
  prior _ _ h := Nat.le_succ_of_le h
  ints _ _ _ h := Nat.le_succ_of_le h
  uniform _ _ h := Nat.le_succ_of_le h
  gamma _ _ _ h := Nat.le_succ_of_le h
  randn _ h := Nat.le_succ_of_le h
  flowFit _ _ _ _ _ h hv := by cases hv; exact Nat.le_succ_of_le h
  geoFit _ _ _ _ h hv := by cases hv; exact Nat.le_succ_of_le h
  flowSample _ _ _ h := Nat.le_succ_of_le h

/-- The run with these generators returns, from any state of theirs; the first point at which it evaluates the likelihood
tells the state. -/
theorem gen_run (p : Bool) (m fuel n w : ℕ) : ∃ s' w', (runG counter (env p) fuel (n + 1) (args m) start w).2 = .ok (s', w') ∧ w < w' ∧
    s'.evals.head? = some (pt fun _ => (w : ℝ)) := by
  obtain ⟨rnd, hr, hd, hp, he⟩ := C116_every_generator generates (env p) fuel (n + 1) (args m) start w
  have hrel := C116_reliable generates hr (reliable p) (fun _ _ _ _ => ⟨_, rfl⟩) fun _ _ _ => ⟨_, rfl⟩
  obtain ⟨s', its, h1, -⟩ := flat_first_run (flat p) (user p) (configured p) hd hrel (fresh p) (fun _ _ => rfl)
    (by simp [env, start]) (args m) (by simp [args]) (by simp [args, env]) fuel n
  have h2 : ∃ w', (runG counter (env p) fuel (n + 1) (args m) start w).2 = .ok (s', w') := by
    rw [he] at h1
    obtain ⟨v, hv, rfl⟩ := map_ok h1
    exact ⟨v.2, hv⟩
  obtain ⟨w', h2⟩ := h2
  refine ⟨s', w', h2, runG_keep (keeps (w + 1)) rfl (by simp [counter]) h2, ?_⟩
  have hpre := (C65_warmup (env p) rnd fuel (n + 1) (args m) start s' true (fresh p) (by simp [env]) (by simp [env]) (by rw [hp]; simp [counter, env]) h1).2.1
  rw [hp] at hpre
  obtain ⟨t, ht⟩ := hpre
  rw [← ht]
  simp [counter, env, List.range_succ]

end Demo

/-- **C117 is false as stated.** Two samplers are built with the same `random_state` and then run, one after the other, with
the same arguments: the program returns, and the two samplers have evaluated the likelihood at different points. -/
theorem C117_second_sampler : ∃ (gen : Gen 2 Unit ℕ) (low high : Fin 2 → F) (e : SamplerEnv 2 Unit Unit) (make : Unit → Sampler 2 Unit Unit) (a : RunArgs)
    (fuel n : ℕ), Generates gen low high ∧ (∀ φ, Fresh e true (make φ)) ∧ ∀ (seed : ℕ) (p : Process 2 Unit Unit ℕ), ∃ q s1 s2,
      exec gen [.build 1 (some seed) make, .build 2 (some seed) make, .run 1 e fuel n a, .run 2 e fuel n a] p = .ok q ∧
      q.var 1 = some s1 ∧ q.var 2 = some s2 ∧ s1.evals ≠ s2.evals := by
  refine ⟨Demo.counter, Demo.start.scaler.low, Demo.start.scaler.high, Demo.env true, fun _ => Demo.start, Demo.args 3, 0, 1, Demo.generates,
    fun _ => Demo.fresh true, fun seed p => ?_⟩
  obtain ⟨s1, w1, h1, h2, h3⟩ := Demo.gen_run true 3 0 0 (seed + 1)
  obtain ⟨s2, w2, k1, -, k3⟩ := Demo.gen_run true 3 0 0 w1
  refine ⟨?q, s1, s2, ?h, ?a, ?b, fun h => ?c⟩
  case c =>
    rw [h, k3] at h3
    have := congrFun (Option.some.inj h3) 0
    simp only [pt, F.fin.injEq, Nat.cast_inj] at this
    omega
  case h =>
    rw [exec_build, exec_build, exec_run (s := Demo.start) (r := (s1, w1)) (by simp [buildG]) h1, exec_run (s := Demo.start) (r := (s2, w2)) (by simp [buildG]) k1]
    rfl
  case a => simp
  case b => simp

/-- **C117 is false as stated**, also for one sampler: a sampler is built with a `random_state`, another one is built without
(which draws the weights of its flow), and then the first is run. It evaluates the likelihood at other points than when the second
was not built. -/
theorem C117_interleaved : ∃ (gen : Gen 2 Unit ℕ) (low high : Fin 2 → F) (e : SamplerEnv 2 Unit Unit) (make : Unit → Sampler 2 Unit Unit) (a : RunArgs)
    (fuel n : ℕ), Generates gen low high ∧ (∀ φ, Fresh e true (make φ)) ∧ ∀ (seed : ℕ) (p : Process 2 Unit Unit ℕ), ∃ q q' s s',
      exec gen [.build 1 (some seed) make, .run 1 e fuel n a] p = .ok q ∧
      exec gen [.build 1 (some seed) make, .build 2 none make, .run 1 e fuel n a] p = .ok q' ∧
      q.var 1 = some s ∧ q'.var 1 = some s' ∧ s.evals ≠ s'.evals := by
  refine ⟨Demo.counter, Demo.start.scaler.low, Demo.start.scaler.high, Demo.env true, fun _ => Demo.start, Demo.args 3, 0, 1, Demo.generates,
    fun _ => Demo.fresh true, fun seed p => ?_⟩
  obtain ⟨s1, w1, h1, -, h3⟩ := Demo.gen_run true 3 0 0 (seed + 1)
  obtain ⟨s2, w2, k1, -, k3⟩ := Demo.gen_run true 3 0 0 (seed + 1 + 1)
  refine ⟨?q, ?q2, s1, s2, ?h, ?h2, ?a, ?b, fun h => ?c⟩
  case c =>
    rw [h, k3] at h3
    have := congrFun (Option.some.inj h3) 0
    simp only [pt, F.fin.injEq, Nat.cast_inj] at this
    omega
  case h =>
    rw [exec_build, exec_run (s := Demo.start) (r := (s1, w1)) (by simp [buildG]) h1]
    rfl
  case h2 =>
    rw [exec_build, exec_build, exec_run (s := Demo.start) (r := (s2, w2)) (by simp [buildG]) k1]
    rfl
  case a => simp
  case b => simp

/-- A case for `C117_reproducible_partial`: after other draws, build and run. -/
example : ∃ q, exec Demo.counter ([.other (· + 5)] ++ .build 1 (some 3) (fun _ => Demo.start) :: [.run 1 (Demo.env true) 0 1 (Demo.args 3)])
    (⟨fun _ => none, 0⟩ : Process 2 Unit Unit ℕ) = .ok q ∧ (q.var 1).isSome := by
  obtain ⟨s1, w1, h1, -, h3⟩ := Demo.gen_run true 3 0 0 (3 + 1)
  refine ⟨?q, ?h, ?a⟩
  case h =>
    change exec Demo.counter (.build 1 (some 3) (fun _ => Demo.start) :: [.run 1 (Demo.env true) 0 1 (Demo.args 3)]) ⟨fun _ => none, 0 + 5⟩ = _
    rw [exec_build, exec_run (s := Demo.start) (r := (s1, w1)) (by simp [buildG]) h1]
    rfl
  case a => simp

/-- The hypotheses of C116 can be met: a session of two runs with generators, and a state file loaded. -/
example : ∃ w s, SessionG Demo.counter (Demo.env true) true Demo.start.scaler.low Demo.start.scaler.high w s ∧ s.evals ≠ [] ∧ Session (Demo.env true) true s := by
  obtain ⟨s1, w1, h1, -, h3⟩ := Demo.gen_run true 3 0 0 7
  have hs : SessionG Demo.counter (Demo.env true) true Demo.start.scaler.low Demo.start.scaler.high w1 s1 :=
    .ran 0 1 (Demo.args 3) (.other 7 (.fresh 0 (Demo.fresh true) rfl rfl)) h1
  exact ⟨w1, s1, hs, by rintro h; rw [h] at h3; simp at h3, C116_sessions Demo.generates (Demo.user true) (Demo.configured true) hs⟩

end Poco
