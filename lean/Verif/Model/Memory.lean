import Verif.Model.Sampler

/-!
# Arrays in memory: the run of `sampler.py` with references

The other models treat arrays as values.  Here arrays live in memory, `Particles.update` stores references, a basic
slice is a view into the array it was taken from, and the user's likelihood is handed references: it may overwrite the
array it is given, and a vectorised likelihood may return the same array from every call.  What the likelihood
computes is as before (`LikeEnv`); `Manners` says what it does to memory.

Not represented: views shared between arrays of different element types, a likelihood that keeps a reference to its
argument and writes to it later, priors that write to their argument (`prior.py` only reads).
-/

namespace Poco
open F

/-- The element types of arrays.  The arrays of the walkers in `mcmc.py` are kept as one array of records, as in
`Model/Mcmc`. -/
inductive Kind where
  | pts
  | nums
  | blobs
  | walkers
deriving DecidableEq

/-- What one row of an array of the given kind holds. -/
@[reducible] def Elem (d : ℕ) (B : Type) : Kind → Type
  | .pts => Pt d
  | .nums => F
  | .blobs => List B
  | .walkers => Walker d (List B)

/-- A reference to `len` rows of the array at address `base`, beginning at row `start`. -/
structure View where
  base : ℕ
  start : ℕ
  len : ℕ

/-- Memory: contents by kind and address; addresses from `next` on are unused. -/
structure Heap (d : ℕ) (B : Type) where
  mem : ∀ k : Kind, ℕ → List (Elem d B k)
  next : ℕ

variable {d : ℕ} {B Φ : Type}

/-- The rows a reference shows. -/
def Heap.read (h : Heap d B) (k : Kind) (v : View) : List (Elem d B k) := ((h.mem k v.base).drop v.start).take v.len

/-- A new array (numpy arithmetic, fancy indexing, `.copy()`, `np.copy`, `np.array`, `np.concatenate`). -/
def Heap.new (h : Heap d B) (k : Kind) (xs : List (Elem d B k)) : Heap d B × View :=
  ({ mem := Function.update h.mem k (Function.update (h.mem k) h.next xs), next := h.next + 1 }, ⟨h.next, 0, xs.length⟩)

/-- Assignment to the rows a reference shows. -/
def Heap.write (h : Heap d B) (k : Kind) (v : View) (xs : List (Elem d B k)) : Heap d B :=
  { h with mem := Function.update h.mem k (Function.update (h.mem k) v.base (writeSlice (h.mem k v.base) v.start xs)) }

/-- `a[lo:lo+n]`. -/
def View.slice (v : View) (lo n : ℕ) : View := ⟨v.base, v.start + lo, min n (v.len - lo)⟩

/-- `a[dst] = a[src]` in place. -/
def Heap.copyRows (h : Heap d B) (k : Kind) (v : View) (dst src : List ℕ) : Except PyErr (Heap d B) := do
  let l ← Poco.copyRows (h.read k v) dst src
  return h.write k v l

/-- What the user's likelihood does to memory: what a row (or, vectorised, the whole array) it was called with contains
afterwards, and, for a vectorised likelihood, the array it returns from every call, if it always returns the same. -/
structure Manners (d : ℕ) where
  row : Pt d → Pt d
  array : List (Pt d) → List (Pt d)
  buffer : Option ℕ

/-- The contents of the array `xs` after the call at sampler.py:823-828: vectorised, the function got the array itself; with
a pool, the workers got pickled copies; otherwise `map` passes each row as a view. -/
def afterCall (m : Manners d) (e : LikeEnv d B) (xs : List (Pt d)) : List (Pt d) :=
  if e.vectorize then m.array xs
  else if e.pool.isSome then xs
  else xs.map m.row

/-- The array that holds the log-likelihoods: sampler.py:824 returns the user's array itself, 835 and 838 make a new one. -/
def returned (m : Manners d) (vectorize : Bool) (h : Heap d B) (logl : List F) : Heap d B × View :=
  if vectorize then
    match m.buffer with
    | some a => (h.write .nums ⟨a, 0, logl.length⟩ logl, ⟨a, 0, logl.length⟩)
    | none => h.new .nums logl
  else h.new .nums logl

/-- sampler.py:853: the array of blobs. -/
def newBlobs (h : Heap d B) : Option (List (List B)) → Heap d B × Option View
  | some b => ((h.new .blobs b).1, some (h.new .blobs b).2)
  | none => (h, none)

/-- sampler.py:807-861 `_log_like` on the array `x`. -/
def callLike (e : LikeEnv d B) (m : Manners d) (h : Heap d B) (x : View) :
    Except PyErr (Heap d B × View × Option View × Bool) := do
  let (logl, blobs, hb) ← logLike e (h.read .pts x)
  let h := h.write .pts x (afterCall m e (h.read .pts x))
  let (h, vl) := returned m e.vectorize h logl
  let (h, vb) := newBlobs h blobs
  return (h, vl, vb, hb)

/-- One iteration in the store: references to its arrays, and its numbers. -/
structure RefIter where
  u : View
  x : View
  logdetj : View
  logl : View
  logp : View
  logw : View
  blobs : Option View
  iter : ℕ
  logz : F
  calls : ℕ
  steps : ℕ
  efficiency : F
  ess : F
  accept : F
  beta : F

/-- What one sees through the references. -/
def RefIter.see (h : Heap d B) (r : RefIter) : Iter d (List B) :=
  { u := h.read .pts r.u, x := h.read .pts r.x, logdetj := h.read .nums r.logdetj, logl := h.read .nums r.logl
    logp := h.read .nums r.logp, logw := h.read .nums r.logw, blobs := r.blobs.map (h.read .blobs), iter := r.iter
    logz := r.logz, calls := r.calls, steps := r.steps, efficiency := r.efficiency, ess := r.ess, accept := r.accept
    beta := r.beta }

/-- The sampler with its arrays in memory: `prior` is `prior_samples`, `hist` the iterations in `particles.past`, `cur`
and `weights` the dictionary `current_particles`.  `rest` has the other attributes (its own `priorSamples`,
`particles.past` and `cur` are not used). -/
structure RefSampler (d : ℕ) (B Φ : Type) where
  heap : Heap d B
  prior : Option View
  hist : List RefIter
  cur : Option RefIter
  weights : Option (List F)
  rest : Sampler d B Φ

/-- The lists of `particles.past` (particles.py:76-90) for a list of iterations. -/
def columnsOf (l : List (Iter d (List B))) : Cols d (List B) List :=
  { u := l.map (·.u), x := l.map (·.x), logdetj := l.map (·.logdetj), logl := l.map (·.logl), logp := l.map (·.logp)
    logw := l.map (·.logw), blobs := l.map (·.blobs), iter := l.map (·.iter), logz := l.map (·.logz)
    calls := l.map (·.calls), steps := l.map (·.steps), efficiency := l.map (·.efficiency), ess := l.map (·.ess)
    accept := l.map (·.accept), beta := l.map (·.beta) }

/-- The sampler as one sees it through its references. -/
def RefSampler.see (r : RefSampler d B Φ) : Sampler d B Φ :=
  { r.rest with
    priorSamples := r.prior.map (r.heap.read .pts)
    particles := { r.rest.particles with past := columnsOf (r.hist.map (RefIter.see r.heap)) }
    cur := r.cur.map fun c => { it := c.see r.heap, weights := r.weights } }

/-! ### warm-up -/

/-- sampler.py:467-468. -/
def copyBlobsIn (h : Heap d B) (haveBlobs : Bool) (bl : Option View) (dst src : List ℕ) : Except PyErr (Heap d B) :=
  if haveBlobs then do
    let v ← orErr .typeError bl
    h.copyRows .blobs v dst src
  else .ok h

/-- sampler.py:456-468: the replacement of particles with infinite likelihood, in place. -/
def replaceInfIn (h : Heap d B) (haveBlobs : Bool) (x u logdetj logp logl : View) (bl : Option View) (draw : ℕ → ℕ) :
    Except PyErr (Heap d B) := do
  let (dst, src) ← infDonors (h.read .nums logl) draw
  if dst = [] then return h
  else
    let h ← h.copyRows .pts x dst src
    let h ← h.copyRows .pts u dst src
    let h ← h.copyRows .nums logdetj dst src
    let h ← h.copyRows .nums logp dst src
    let h ← h.copyRows .nums logl dst src
    copyBlobsIn h haveBlobs bl dst src

/-- sampler.py:448-488: one warm-up iteration.  `x` is a view into `prior_samples`, and the references themselves go into
the store. -/
noncomputable def warmupStepR (e : SamplerEnv d B Φ) (m : Manners d) (rnd : Rnd d Φ) (r : RefSampler d B Φ) (i : ℕ) :
    Except PyErr (RefSampler d B Φ) := do
  let p ← orErr .typeError r.prior
  let x := p.slice (i * e.nActive) e.nActive
  let xs := r.heap.read .pts x
  let us ← r.rest.scaler.forward xs
  let (h, u) := r.heap.new .pts us
  let inv ← r.rest.scaler.inverse us
  let (h, logdetj) := h.new .nums (inv.map (·.2))
  let (h, logp) := h.new .nums (e.logPrior (h.read .pts x))
  let (h, logl, bl, hb) ← callLike e.like m h x
  let hb := r.rest.haveBlobs || hb
  let h ← replaceInfIn h hb x u logdetj logp logl bl (rnd.warm r.rest.t)
  let (h, logw) := h.new .nums (List.replicate e.nActive (fin (-1e300)))
  let calls := r.rest.calls + e.nActive
  let it : RefIter :=
    { u, x, logdetj, logl, logp, logw, blobs := bl, iter := r.rest.t, logz := fin 0, calls, steps := 1, efficiency := fin 1,
      ess := F.ofNat r.rest.nEffective, accept := fin 1, beta := fin 0 }
  return { r with heap := h
                  hist := r.hist ++ [it]
                  cur := some it
                  weights := none
                  rest := { r.rest with haveBlobs := hb, calls := calls, t := r.rest.t + 1, evals := r.rest.evals ++ xs } }

/-! ### MCMC -/

/-- mcmc.py:105-121, 273-289, 434-450, 588-604: prior and likelihood at the proposed points `xp`; both are called with
`x_prime[finite_mask]`, which is a new array each time, and what they return is copied into the rows of the mask.  `after`
is what the likelihood leaves in its argument, `buffer` the array it returns. -/
noncomputable def evaluateR (e : McmcEnv d (List B)) (after : List (Pt d) → List (Pt d)) (buffer : Option ℕ) (h : Heap d B)
    (xp : View) (cands : List (Walker d (List B))) :
    Except PyErr (Heap d B × List (Walker d (List B)) × List (Pt d) × ℕ) := do
  let mask1 := cands.map finiteMask
  let (h, a1) := h.new .pts (maskSelect mask1 (h.read .pts xp))
  let logp ← scatter ninf mask1 (e.logPrior (h.read .pts a1))
  let mask := List.zipWith (fun m lp => m && F.isfinite lp) mask1 logp
  let (h, a2) := h.new .pts (maskSelect mask (h.read .pts xp))
  let evaluated := h.read .pts a2
  let (ll, bl) ← e.logLike evaluated
  let h := h.write .pts a2 (after evaluated)
  let (h, vl) := returned ⟨id, id, buffer⟩ buffer.isSome h ll
  let logl ← scatter ninf mask (h.read .nums vl)
  let blobs ← scatterBlobs e.haveBlobs bl mask
  let seen := List.zipWith (fun (c : Walker d (List B)) x => { c with x := x }) cands (h.read .pts xp)
  let full := List.zipWith (fun c (v : F × F × Option (List B)) => { c with logl := v.1, logp := v.2.1, blob := v.2.2 })
    seen (logl.zip (logp.zip blobs))
  return (h, full, evaluated, mask.count true)

/-- mcmc.py:122-180, 290-337, 451-503, 605-650: from the evaluated proposals to the end of the turn. -/
noncomputable def acceptStep (e : McmcEnv d B) (rnd : ℕ → Draw d) (i : ℕ) (st : McmcState d B) (props : List (Walker d B))
    (evaluated : List (Pt d)) (nCalls : ℕ) : McmcState d B :=
  let pairs := st.walkers.zip props
  let alphas := pairs.map fun q => alpha e st.mu q.1 q.2
  let walkers := pairs.mapIdx fun k q => if (rnd k).rand < alpha e st.mu q.1 q.2 then q.2 else q.1
  let acc := mean alphas
  let sigma := sigmaNext e.kernel d i st.sigma acc
  let mu := muNext e.kernel i st.mu walkers
  let val := monitor e.kernel walkers
  let st' := { st with walkers, sigma, mu, calls := st.calls + nCalls, accept := acc,
                       evaluated := st.evaluated ++ evaluated }
  if val > st.best then { st' with best := val, cnt := 0, stop := false }
  else { st' with cnt := st.cnt + 1,
                  stop := decide (patienceLimit e.kernel d e.nSteps sigma ≤ F.ofNat (st.cnt + 1)) }

/-- One turn of the `while True` loop with the walkers in memory at `w`: the accepted rows are overwritten in place
(mcmc.py:141-149, 303-311, 470-476, 618-624).  The walkers in `st` itself are not used. -/
noncomputable def mcmcStepR (e : McmcEnv d (List B)) (after : List (Pt d) → List (Pt d)) (buffer : Option ℕ) (fuel : ℕ)
    (rnd : ℕ → Draw d) (i : ℕ) (w : View) (h : Heap d B) (st : McmcState d (List B)) :
    Except PyErr (Heap d B × McmcState d (List B)) := do
  let st := { st with walkers := h.read .walkers w }
  let cands ← (st.walkers.mapIdx fun k w => propose e st.sigma st.mu w (rnd k)).mapM (candidate e fuel)
  let (h, xp) := h.new .pts (cands.map (·.x))
  let (h, props, evaluated, nCalls) ← evaluateR e after buffer h xp cands
  let st := acceptStep e rnd i st props evaluated nCalls
  return (h.write .walkers w st.walkers, st)

/-- The `while True` loop; `i` is the number of completed steps. -/
noncomputable def mcmcLoopR (e : McmcEnv d (List B)) (after : List (Pt d) → List (Pt d)) (buffer : Option ℕ) (fuel : ℕ)
    (rnd : ℕ → ℕ → Draw d) (i : ℕ) (w : View) (h : Heap d B) (st : McmcState d (List B)) :
    Except PyErr (Heap d B × McmcState d (List B) × ℕ) :=
  match mcmcStepR e after buffer fuel (rnd (i + 1)) (i + 1) w h st with
  | .error x => .error x
  | .ok (h', st') =>
    if st'.stop then .ok (h', st', i + 1)
    else if e.nMax ≤ i + 1 then .ok (h', st', i + 1)
    else mcmcLoopR e after buffer fuel rnd (i + 1) w h' st'
termination_by e.nMax - i

/-- A whole kernel call on the arrays at `w0`: they are copied first (mcmc.py:31-36, 209-214, 367-372, 531-536). -/
noncomputable def mcmcR (e : McmcEnv d (List B)) (after : List (Pt d) → List (Pt d)) (buffer : Option ℕ) (fuel : ℕ)
    (rnd : ℕ → ℕ → Draw d) (w0 : View) (h : Heap d B) : Except PyErr (Heap d B × McmcResult d (List B)) :=
  let st := mcmcInit e (h.read .walkers w0)
  let hw := h.new .walkers st.walkers
  match mcmcLoopR e after buffer fuel rnd 0 hw.2 hw.1 st with
  | .error x => .error x
  | .ok (h, st, i) =>
    .ok (h, { walkers := h.read .walkers hw.2, efficiency := st.sigma, accept := st.accept, steps := i,
              calls := st.calls, proposalScale := st.sigma, evaluated := st.evaluated })

/-! ### one turn of the main loop -/

/-- New arrays for all columns of `current_particles` (sampler.py:619-625 `.copy()`), and the reference to `logw`, which no
iteration assigns after the warm-up. -/
def newIter (h : Heap d B) (logw : View) (it : Iter d (List B)) : Heap d B × RefIter :=
  let (h, u) := h.new .pts it.u
  let (h, x) := h.new .pts it.x
  let (h, logdetj) := h.new .nums it.logdetj
  let (h, logl) := h.new .nums it.logl
  let (h, logp) := h.new .nums it.logp
  let (h, blobs) := newBlobs h it.blobs
  (h, { u, x, logdetj, logl, logp, logw, blobs, iter := it.iter, logz := it.logz, calls := it.calls, steps := it.steps
        efficiency := it.efficiency, ess := it.ess, accept := it.accept, beta := it.beta })

/-- sampler.py:497-510: one turn of the main loop.  `_reweight`, `_train` and `_resample` read the store and make new arrays
(`np.concatenate`, fancy indexing, `torch.tensor`), so they are the functions on values; `_mutate` copies its arguments
(564-576), the kernel copies them again and writes into its copies, and the results are copied.  Simplification: without
blobs the reference in `current_particles["blobs"]` (None) is kept; with blobs a new array is made. -/
noncomputable def smcStepR (e : SamplerEnv d B Φ) (m : Manners d) (rnd : Rnd d Φ) (fuel : ℕ) (r : RefSampler d B Φ) :
    Except PyErr (RefSampler d B Φ) := do
  let rc ← orErr .attributeError r.cur
  let (s, c) ← reweight e fuel r.see { it := rc.see r.heap, weights := r.weights }
  let s ← train e rnd s c
  let c ← resampleStep e rnd s c
  let ws ← toWalkers c.it s.haveBlobs
  let (h, w0) := r.heap.new .walkers ws
  let k ← kernelEnv e s c.it.beta
  let (h, res) ← mcmcR k (afterCall m e.like) (if e.like.vectorize then m.buffer else none) fuel (rnd.mcmc s.t) w0 h
  let q := writeBack s c res
  let hn := newIter h rc.logw q.2.it
  return { r with heap := hn.1
                  hist := r.hist ++ [hn.2]
                  cur := some hn.2
                  weights := q.2.weights
                  rest := { q.1 with priorSamples := none, cur := none } }

/-! ### run -/

/-- sampler.py:442-489: the warm-up loop over the batches `i, i+1, …` (`n` of them).  Simplification: the state files are left
out here and below (saving reads the arrays and writes none). -/
noncomputable def warmupLoopR (e : SamplerEnv d B Φ) (m : Manners d) (rnd : Rnd d Φ) : ℕ → ℕ → RefSampler d B Φ →
    Except PyErr (RefSampler d B Φ)
  | 0, _, r => .ok r
  | n + 1, i, r => do
    let r ← warmupStepR e m rnd r i
    warmupLoopR e m rnd n (i + 1) r

/-- sampler.py:492-510: the main loop; `diverged` when the fuel runs out. -/
noncomputable def smcLoopR (e : SamplerEnv d B Φ) (m : Manners d) (rnd : Rnd d Φ) (fuel : ℕ) : ℕ → RefSampler d B Φ →
    Except PyErr (RefSampler d B Φ)
  | n, r =>
    match notTermination e r.see with
    | .error x => .error x
    | .ok false => .ok r
    | .ok true =>
      match n with
      | 0 => .error .diverged
      | n + 1 => do
        let r ← smcStepR e m rnd fuel r
        smcLoopR e m rnd fuel n r

/-- sampler.py:434-440: run parameters and prior samples. -/
noncomputable def runInitR (e : SamplerEnv d B Φ) (rnd : Rnd d Φ) (a : RunArgs) (r : RefSampler d B Φ) :
    Except PyErr (RefSampler d B Φ) :=
  let r := { r with rest := { r.rest with nTotal := a.nTotal, nEvidence := a.nEvidence } }
  match r.prior with
  | some _ => .ok r
  | none => do
    let ps := rnd.prior e.nPrior
    let scaler ← r.rest.scaler.fit ps
    return { r with heap := (r.heap.new .pts ps).1, prior := some (r.heap.new .pts ps).2
                    rest := { r.rest with scaler := scaler } }

/-- sampler.py:442-489: the warm-up, if it is still due. -/
noncomputable def runWarmupR (e : SamplerEnv d B Φ) (m : Manners d) (rnd : Rnd d Φ) (r : RefSampler d B Φ) :
    Except PyErr (RefSampler d B Φ) :=
  if r.rest.warmup then
    if e.nActive = 0 then .error .zeroDivision
    else do
      let r ← warmupLoopR e m rnd (e.nPrior / e.nActive) 0 r
      return { r with rest := { r.rest with warmup := false } }
  else .ok r

/-- sampler.py:405-524 `run`.  The evidence (512-517) is computed from what the arrays then show; its own arrays are new
(`keepFinite` is indexing with a mask), and nothing of it is stored. -/
noncomputable def runR (e : SamplerEnv d B Φ) (m : Manners d) (rnd : Rnd d Φ) (fuel n : ℕ) (a : RunArgs)
    (r : RefSampler d B Φ) : Except PyErr (RefSampler d B Φ) := do
  let r ← runInitR e rnd a r
  let r ← runWarmupR e m rnd r
  let r ← smcLoopR e m rnd fuel n r
  let s ← finalEvidence e rnd r.see
  return { r with rest := { s with priorSamples := none, cur := none } }

end Poco
