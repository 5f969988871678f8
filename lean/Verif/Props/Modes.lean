import Verif.Props.LogLike
import Verif.Props.Extend

/-! How the likelihood is evaluated, and whether state files are written, does not change a run: C138. -/

namespace Poco
open F Spec

variable {d : ℕ} {B Φ : Type}

section
variable {e : SamplerEnv d B Φ} {l : LikeEnv d B}

theorem kernelEnv_like (h : logLike l = logLike e.like) (s : Sampler d B Φ) (beta : F) :
    kernelEnv { e with like := l } s beta = kernelEnv e s beta := by
  unfold kernelEnv
  dsimp only
  rw [h]
  rfl

theorem smcStep_like (h : logLike l = logLike e.like) (rnd : Rnd d Φ) (fuel : ℕ) (s : Sampler d B Φ) :
    smcStep { e with like := l } rnd fuel s = smcStep e rnd fuel s := by
  have hm : ∀ (s : Sampler d B Φ) (c : Cur d B), mutate { e with like := l } rnd fuel s c = mutate e rnd fuel s c := by
    intro s c
    unfold mutate
    rw [kernelEnv_like h]
  unfold smcStep
  simp only [hm]
  rfl

theorem warmupStep_like (h : logLike l = logLike e.like) (rnd : Rnd d Φ) (s : Sampler d B Φ) (i : ℕ) :
    warmupStep { e with like := l } rnd s i = warmupStep e rnd s i := by
  have hm : warmupBatch { e with like := l } s i = warmupBatch e s i := by
    unfold warmupBatch
    dsimp only
    rw [h]
  unfold warmupStep
  rw [hm]

theorem finalEvidence_like (h : logLike l = logLike e.like) (rnd : Rnd d Φ) (s : Sampler d B Φ) :
    finalEvidence { e with like := l } rnd s = finalEvidence e rnd s := by
  unfold finalEvidence computeEvidence
  dsimp only
  rw [h]

theorem warmupLoop_like (h : logLike l = logLike e.like) (rnd : Rnd d Φ) (k : Option ℕ) (t0 n : ℕ) : ∀ (i : ℕ) (s : Sampler d B Φ),
    warmupLoop { e with like := l } rnd k t0 n i s = warmupLoop e rnd k t0 n i s := by
  induction n with
  | zero => intro i s; rfl
  | succ n ih =>
    intro i s
    unfold warmupLoop
    simp only [warmupStep_like h, ih]

theorem smcLoop_like (h : logLike l = logLike e.like) (rnd : Rnd d Φ) (fuel : ℕ) (k : Option ℕ) (t0 n : ℕ) : ∀ s : Sampler d B Φ,
    smcLoop { e with like := l } rnd fuel k t0 n s = smcLoop e rnd fuel k t0 n s := by
  have hn : ∀ s : Sampler d B Φ, notTermination { e with like := l } s = notTermination e s := fun _ => rfl
  induction n with
  | zero => intro s; unfold smcLoop; rw [hn]
  | succ n ih =>
    intro s
    unfold smcLoop
    rw [hn]
    simp only [smcStep_like h, ih]

/-- A run depends on the likelihood only through what `_log_like` returns for each batch. -/
theorem run_like (h : logLike l = logLike e.like) (rnd : Rnd d Φ) (fuel n : ℕ) (a : RunArgs) (s : Sampler d B Φ) :
    run { e with like := l } rnd fuel n a s = run e rnd fuel n a s := by
  have h1 : ∀ s : Sampler d B Φ, runInit { e with like := l } rnd a s = runInit e rnd a s := fun _ => rfl
  have h2 : ∀ (t0 : ℕ) (s : Sampler d B Φ), runWarmup { e with like := l } rnd a t0 s = runWarmup e rnd a t0 s := by
    intro t0 s
    unfold runWarmup
    simp only [warmupLoop_like h]
  unfold run
  simp only [h1, h2, smcLoop_like h, finalEvidence_like h]

end

/-- C138, pools: with a pool whose `map` applies the function to every task and keeps the order (every schedule of `MPIPool`, C48), every run does
what it does without a pool: the same state files, and the same final state or exception. Any likelihood, with or without blobs. -/
theorem C138_pool {A K : Type} (u : UserLike d B A K) (args : Option (List A)) (kwargs : Option (List K))
    (distribute : (Pt d → Except PyErr (LikeOut B)) → List (Pt d) → Except PyErr (List (LikeOut B)))
    (hd : ∀ f xs, distribute f xs = xs.mapM f) (e : SamplerEnv d B Φ) (rnd : Rnd d Φ) (fuel n : ℕ) (a : RunArgs) (s : Sampler d B Φ) :
    run { e with like := LikeEnv.make u args kwargs false (some distribute) } rnd fuel n a s =
      run { e with like := LikeEnv.make u args kwargs false none } rnd fuel n a s := by
  refine run_like (e := { e with like := LikeEnv.make u args kwargs false none }) (funext fun x => ?_) rnd fuel n a s
  exact C51_pool (LikeEnv.make u args kwargs false none) distribute hd x

/-- C138, vectorisation: a likelihood that accepts a whole array and agrees there, row by row, with what it returns for single points gives
the same run with `vectorize=True` (any pool), with `vectorize=False` and a pool as above, and without either. -/
theorem C138_vectorize {A K : Type} (u : UserLike d B A K) (args : Option (List A)) (kwargs : Option (List K)) (f : Pt d → F)
    (hrow : ∀ p, u.row p (args.getD []) (kwargs.getD []) = .ok (.scalar (f p)) ∨ u.row p (args.getD []) (kwargs.getD []) = .ok (.seq true (f p) []))
    (harr : ∀ x, u.array x (args.getD []) (kwargs.getD []) = .ok (x.map f))
    (pool pool' : Option ((Pt d → Except PyErr (LikeOut B)) → List (Pt d) → Except PyErr (List (LikeOut B))))
    (hp : ∀ D, pool' = some D → ∀ g xs, D g xs = xs.mapM g) (e : SamplerEnv d B Φ) (rnd : Rnd d Φ) (fuel n : ℕ) (a : RunArgs)
    (s : Sampler d B Φ) :
    run { e with like := LikeEnv.make u args kwargs true pool } rnd fuel n a s =
      run { e with like := LikeEnv.make u args kwargs false pool' } rnd fuel n a s := by
  refine run_like (e := { e with like := LikeEnv.make u args kwargs false pool' }) (funext fun x => ?_) rnd fuel n a s
  obtain ⟨h1, h2⟩ := C51_vectorize (LikeEnv.make u args kwargs true pool) f x (fun p _ => hrow p) (harr x)
  refine Eq.trans h1 ?_
  cases pool' with
  | none => exact h2.symm
  | some D => exact (h2.symm.trans (C51_pool (LikeEnv.make u args kwargs false none) D (hp D rfl) x).symm)

/-- C138, saving: whether and how often state files are written changes nothing in the outcome of a run: the same final state, or the
same exception (`save_every=0` raises). -/
theorem C138_saving (e : SamplerEnv d B Φ) (rnd : Rnd d Φ) (fuel n : ℕ) (a : RunArgs) (k : Option ℕ) (ha : a.saveEvery ≠ some 0) (hk : k ≠ some 0)
    (s : Sampler d B Φ) : (run e rnd fuel n { a with saveEvery := k } s).2 = (run e rnd fuel n a s).2 := by
  have comp : ∀ {t t' : Trace d B Φ} {f f' : Sampler d B Φ → Trace d B Φ}, t.2 = t'.2 → (∀ s, (f s).2 = (f' s).2) →
      (t.andThen f).2 = (t'.andThen f').2 := by
    intro t t' f f' h1 h2
    obtain ⟨l, r⟩ := t
    obtain ⟨l', r'⟩ := t'
    dsimp only at h1
    subst h1
    cases r with
    | error x => rfl
    | ok s => exact h2 s
  have hsave : ∀ (t0 : ℕ) (s : Sampler d B Φ), (Trace.save k t0 s).2 = (Trace.save a.saveEvery t0 s).2 := fun t0 s => by
    rw [save_fine hk, save_fine ha]
  have hwl : ∀ (t0 n i : ℕ) (s : Sampler d B Φ), (warmupLoop e rnd k t0 n i s).2 = (warmupLoop e rnd a.saveEvery t0 n i s).2 := by
    intro t0 n
    induction n with
    | zero => intro i s; rfl
    | succ n ih =>
      intro i s
      unfold warmupLoop
      exact comp (hsave t0 s) fun s => comp rfl fun s => ih _ s
  have hsl : ∀ (t0 n : ℕ) (s : Sampler d B Φ), (smcLoop e rnd fuel k t0 n s).2 = (smcLoop e rnd fuel a.saveEvery t0 n s).2 := by
    intro t0 n
    induction n with
    | zero =>
      intro s
      unfold smcLoop
      cases notTermination e s with
      | error x => rfl
      | ok b => cases b <;> rfl
    | succ n ih =>
      intro s
      unfold smcLoop
      cases notTermination e s with
      | error x => rfl
      | ok b =>
        cases b with
        | false => rfl
        | true => exact comp (hsave t0 s) fun s => comp rfl fun s => ih s
  unfold run
  dsimp only
  refine comp rfl fun s1 => comp ?_ fun s2 => comp (hsl _ _ _) fun s3 => comp rfl fun s4 => ?_
  · unfold runWarmup
    split_ifs
    · rfl
    · exact comp (hwl _ _ _ _) fun _ => rfl
    · rfl
  · cases k <;> cases a.saveEvery <;> rfl

/-- A likelihood on two parameters that can be called on a point and on an array, with one extra argument. -/
noncomputable def Demo.twice : UserLike 2 Unit ℝ ℝ where
  row p a _ := .ok (.scalar (fin (a.getD 0 0) * p 0))
  array x a _ := .ok (x.map fun p => fin (a.getD 0 0) * p 0)

/-- The hypotheses of `C138_vectorize` are met by it. -/
example (fuel n : ℕ) (a : RunArgs) : run { Demo.env true with like := LikeEnv.make Demo.twice (some [3]) none true none } Demo.rnd fuel n a Demo.start =
    run { Demo.env true with like := LikeEnv.make Demo.twice (some [3]) none false (some fun f xs => xs.mapM f) } Demo.rnd fuel n a Demo.start :=
  C138_vectorize Demo.twice (some [3]) none (fun p => fin 3 * p 0) (fun p => .inl rfl) (fun x => rfl) none _ (fun D h g xs => by cases h; rfl)
    _ _ _ _ _ _

/-- A run that returns, saving after every iteration, returns the same without saving. -/
example : ∃ s', (run (Demo.env true) Demo.rnd 0 1 (Demo.args 5) Demo.start).2 = .ok s' ∧
    (run (Demo.env true) Demo.rnd 0 1 ⟨6, 5, none⟩ Demo.start).2 = .ok s' := by
  obtain ⟨s1, h1, -⟩ := Demo.session true 5
  exact ⟨s1, h1, (C138_saving (Demo.env true) Demo.rnd 0 1 (Demo.args 5) none (by simp [Demo.args]) (by simp) Demo.start).trans h1⟩

end Poco
