import Verif.Model.Scaler

/-!
# Model of `pocomc/mcmc.py`

The four kernels share most of their text; the model has one definition per piece of that text, with the kernel as a
parameter where they differ.  The arrays `u, x, logdetj, logl, logp, blobs` (and `theta, logdetj_flow`) of length
`n_walkers` are kept as one list of records `Walker`; writing the same boolean mask into all of them is replacing whole
records.  Random numbers are explicit arguments.  The progress bar is not modelled.
-/

namespace Poco
open F

/-- The four functions of mcmc.py: `preconditioned_pcn` (8-183), `preconditioned_rwm` (186-341), `pcn` (344-506), `rwm` (508-654). -/
inductive Kern where
  | ppcn
  | prwm
  | pcn
  | rwm
deriving DecidableEq

/-- Does the kernel work in the flow's latent space? -/
def Kern.hasFlow : Kern → Bool
  | .ppcn => true
  | .prwm => true
  | .pcn => false
  | .rwm => false
/-- Is it a t-preconditioned Crank-Nicolson kernel? -/
def Kern.isPcn : Kern → Bool
  | .ppcn => true
  | .prwm => false
  | .pcn => true
  | .rwm => false

/-- One walker, mcmc.py:30-36, 59.  For the kernels without a flow `theta` is a copy of `u` and `logdetjFlow` is 0. -/
structure Walker (d : ℕ) (B : Type) where
  theta : Pt d
  u : Pt d
  x : Pt d
  logdetj : F
  logdetjFlow : F
  logl : F
  logp : F
  blob : Option B

/-- The random numbers one walker consumes in one step: `np.random.gamma` (mcmc.py:80, 412), `np.random.randn`
(85, 253, 417, 571), `np.random.rand` (137, 299, 466, 614). -/
structure Draw (d : ℕ) where
  gamma : F
  z : Pt d
  rand : F

/-- Everything a kernel gets through `function_dict` and `option_dict`, mcmc.py:43-55, 221-233, 379-390, 543-554.
`invCov`, `cholCov` are `np.linalg.inv/cholesky` of `t_cov` (67-68, 398-399); for rwm kernels `cholCov` is
`np.linalg.cholesky` of `normal_cov` (237-238, 558-559).  The flow maps are taken to act on each row alone. -/
structure McmcEnv (d : ℕ) (B : Type) where
  kernel : Kern
  logLike : List (Pt d) → Except PyErr (List F × Option (List B))
  logPrior : List (Pt d) → List F
  scaler : Scaler d
  flowFwd : Pt d → Pt d × F
  flowInv : Pt d → Pt d × F
  tMean : Pt d
  tNu : F
  invCov : Fin d → Fin d → F
  cholCov : Fin d → Fin d → F
  beta : F
  nMax : ℕ
  nSteps : ℕ
  proposalScale : F
  haveBlobs : Bool

variable {d : ℕ} {B : Type}

/-- `np.dot` of two vectors. -/
noncomputable def dot (a b : Pt d) : F := sum (List.ofFn fun i => a i * b i)
/-- `np.dot` of a matrix and a vector. -/
noncomputable def matVec (M : Fin d → Fin d → F) (v : Pt d) : Pt d := fun i => sum (List.ofFn fun j => M i j * v j)

/-- `np.dot(diff, np.dot(inv_cov, diff))` with `diff = theta - mu` (mcmc.py:77-80, 128-129, 409-412, 457-458). -/
noncomputable def quad (e : McmcEnv d B) (mu theta : Pt d) : F :=
  let diff : Pt d := fun i => theta i - mu i
  dot diff (matVec e.invCov diff)

/-- Shape and scale given to `np.random.gamma`, mcmc.py:80, 412. -/
noncomputable def gammaParams (e : McmcEnv d B) (mu theta : Pt d) : F × F :=
  ((F.ofNat d + e.tNu) / fin 2, fin 2 / (e.tNu + quad e mu theta))

/-- The proposal: mcmc.py:77-85, 409-417 (t-pCN) and 253, 571 (random walk). -/
noncomputable def propose (e : McmcEnv d B) (sigma : F) (mu : Pt d) (w : Walker d B) (r : Draw d) : Pt d :=
  let step := matVec e.cholCov r.z
  if e.kernel.isPcn then
    let s := fin 1 / r.gamma
    fun i => mu i + sqrt (fin 1 - sq sigma) * (w.theta i - mu i) + sigma * sqrt s * step i
  else
    fun i => w.theta i + sigma * step i

/-- mcmc.py:87-97, 255-265, 419-426, 573-580: a proposed point with everything needed to judge it, except prior and
likelihood (`logl`, `logp`, `blob` are dummies here).  `diverged` stands for a boundary loop that does not end. -/
noncomputable def candidate (e : McmcEnv d B) (fuel : ℕ) (p : Pt d) : Except PyErr (Walker d B) := do
  let (u, ldf) := if e.kernel.hasFlow then e.flowInv p else (p, fin 0)
  let (x, ld) ← e.scaler.inverseRow u
  if e.scaler.periodic.isSome || e.scaler.reflective.isSome then
    match e.scaler.boundaryRow fuel x with
    | none => .error .diverged
    | some x =>
      let u ← e.scaler.forwardRow x
      let (x, ld) ← e.scaler.inverseRow u
      return { theta := if e.kernel.hasFlow then p else u, u := u, x := x, logdetj := ld, logdetjFlow := ldf,
               logl := ninf, logp := ninf, blob := none }
  else
    return { theta := p, u := u, x := x, logdetj := ld, logdetjFlow := ldf, logl := ninf, logp := ninf, blob := none }

/-- numpy's masked assignment `a = empty(n); a[mask] = vals; a[~mask] = dflt`; ValueError if the number of values is
wrong.  Simplification: numpy would broadcast a single value. -/
def scatter {α : Type} (dflt : α) : List Bool → List α → Except PyErr (List α)
  | [], [] => .ok []
  | [], _ :: _ => .error .valueError
  | false :: m, vs => (scatter dflt m vs).map (dflt :: ·)
  | true :: m, v :: vs => (scatter dflt m vs).map (v :: ·)
  | true :: _, [] => .error .valueError

/-- mcmc.py:100-102, 268-270, 429-431, 583-585: the finiteness mask before the prior. -/
def finiteMask (c : Walker d B) : Bool := c.logdetj.isfinite && (List.ofFn c.x).all F.isfinite

/-- mcmc.py:113-117, 281-285, 442-446, 596-600: the blobs of the proposals.  When the state has blobs but the likelihood
call returns none, the model raises TypeError unless the batch is empty. -/
def scatterBlobs (haveBlobs : Bool) (bl : Option (List B)) (mask : List Bool) : Except PyErr (List (Option B)) :=
  if haveBlobs then
    match bl with
    | some b => scatter none mask (b.map some)
    | none => if mask.count true = 0 then .ok (mask.map fun _ => none) else .error .typeError
  else .ok (mask.map fun _ => none)

/-- mcmc.py:105-121, 273-289, 434-450, 588-604: prior and likelihood at the proposed points.  Result: the proposals
completed, the list of points given to the likelihood, and the increment of `n_calls`. -/
noncomputable def evaluate (e : McmcEnv d B) (cands : List (Walker d B)) :
    Except PyErr (List (Walker d B) × List (Pt d) × ℕ) := do
  let xs := cands.map (·.x)
  let mask1 := cands.map finiteMask
  let logp ← scatter ninf mask1 (e.logPrior (maskSelect mask1 xs))
  let mask := List.zipWith (fun m lp => m && F.isfinite lp) mask1 logp
  let evaluated := maskSelect mask xs
  let (ll, bl) ← e.logLike evaluated
  let logl ← scatter ninf mask ll
  let blobs ← scatterBlobs e.haveBlobs bl mask
  let full := List.zipWith (fun c (v : F × F × Option B) => { c with logl := v.1, logp := v.2.1, blob := v.2.2 })
    cands (logl.zip (logp.zip blobs))
  return (full, evaluated, mask.count true)

/-- `A[k]`, `B[k]`: mcmc.py:128-129, 457-458. -/
noncomputable def tFactor (e : McmcEnv d B) (mu theta : Pt d) : F :=
  -(F.ofNat d + e.tNu) / fin 2 * log (fin 1 + quad e mu theta / e.tNu)

/-- The exponent of the Metropolis factor: mcmc.py:132, 294, 461, 609. -/
noncomputable def metropolisExponent (e : McmcEnv d B) (mu : Pt d) (w p : Walker d B) : F :=
  let base := p.logl * e.beta - w.logl * e.beta + p.logp - w.logp + p.logdetj - w.logdetj
  match e.kernel with
  | .ppcn => base + p.logdetjFlow - w.logdetjFlow - tFactor e mu p.theta + tFactor e mu w.theta
  | .prwm => base + p.logdetjFlow - w.logdetjFlow
  | .pcn => base - tFactor e mu p.theta + tFactor e mu w.theta
  | .rwm => base

/-- mcmc.py:130-134, 292-296, 459-463, 607-611: the acceptance probability, NaN replaced by 0. -/
noncomputable def alpha (e : McmcEnv d B) (mu : Pt d) (w p : Walker d B) : F :=
  let a := minimum (fin 1) (exp (metropolisExponent e mu w p))
  if a.isnan then fin 0 else a

/-- mcmc.py:152, 314, 479, 627: the adapted scale, from the old scale, the step number and the mean acceptance. -/
noncomputable def sigmaNext (k : Kern) (d i : ℕ) (sigma acc : F) : F :=
  match k with
  | .ppcn => abs (minimum (sigma + fin (1 / ((i : ℝ) + 1) ^ (0.75 : ℝ)) * (acc - fin 0.234))
      (minimum (fin 2.38 / fin (Real.sqrt d)) (fin 0.99)))
  | .pcn => abs (minimum (sigma + fin (1 / ((i : ℝ) + 1) ^ (0.75 : ℝ)) * (acc - fin 0.234))
      (minimum (fin 2.38 / fin (Real.sqrt d)) (fin 0.99)))
  | .prwm => sigma + fin (1 / ((i : ℝ) + 1)) * (acc - fin 0.234)
  | .rwm => abs (sigma + fin (1 / ((i : ℝ) + 1)) * (acc - fin 0.234))

/-- mcmc.py:156: the adapted mean (only `preconditioned_pcn`). -/
noncomputable def muNext (k : Kern) (i : ℕ) (mu : Pt d) (ws : List (Walker d B)) : Pt d :=
  match k with
  | .ppcn => fun j => mu j + fin (1 / ((i : ℝ) + 1)) * (mean (ws.map fun w => w.theta j) - mu j)
  | _ => mu

/-- mcmc.py:70, 170, 243, 327, 401, 493, 561, 640: the monitored mean log-posterior. -/
noncomputable def monitor (k : Kern) (ws : List (Walker d B)) : F :=
  mean (ws.map fun w => if k.isPcn then w.logl + w.logp else w.logl + w.logp + w.logdetj)

/-- mcmc.py:176, 333, 499, 646: the number of steps without improvement that ends the loop. -/
noncomputable def patienceLimit (k : Kern) (d nSteps : ℕ) (sigma : F) : F :=
  match k with
  | .prwm => F.ofNat nSteps * sq (minimum (fin 1) (fin 2.38 / fin (Real.sqrt d) / sigma))
  | _ => F.ofNat nSteps * sq (fin 2.38 / fin (Real.sqrt d) / sigma)

/-- Loop variables.  `evaluated` is a ghost variable: every point given to the likelihood so far, in order.
`stop` says that the plateau test asked for a break. -/
structure McmcState (d : ℕ) (B : Type) where
  walkers : List (Walker d B)
  sigma : F
  mu : Pt d
  best : F
  cnt : ℕ
  calls : ℕ
  accept : F
  evaluated : List (Pt d)
  stop : Bool

/-- One turn of the `while True` loop, mcmc.py:74-180, 247-337, 406-503, 565-650; `i` is the step number after
`i += 1`; `rnd k` are the random numbers of walker `k`. -/
noncomputable def mcmcStep (e : McmcEnv d B) (fuel : ℕ) (rnd : ℕ → Draw d) (i : ℕ) (st : McmcState d B) :
    Except PyErr (McmcState d B) := do
  let cands ← (st.walkers.mapIdx fun k w => propose e st.sigma st.mu w (rnd k)).mapM (candidate e fuel)
  let (props, evaluated, nCalls) ← evaluate e cands
  let pairs := st.walkers.zip props
  let alphas := pairs.map fun q => alpha e st.mu q.1 q.2
  let walkers := pairs.mapIdx fun k q => if (rnd k).rand < alpha e st.mu q.1 q.2 then q.2 else q.1
  let acc := mean alphas
  let sigma := sigmaNext e.kernel d i st.sigma acc
  let mu := muNext e.kernel i st.mu walkers
  let val := monitor e.kernel walkers
  let st' := { st with walkers, sigma, mu, calls := st.calls + nCalls, accept := acc,
                       evaluated := st.evaluated ++ evaluated }
  if val > st.best then
    return { st' with best := val, cnt := 0, stop := false }
  else
    return { st' with cnt := st.cnt + 1,
                      stop := decide (patienceLimit e.kernel d e.nSteps sigma ≤ F.ofNat (st.cnt + 1)) }

/-- The `while True` loop; `i` is the number of completed steps. -/
noncomputable def mcmcLoop (e : McmcEnv d B) (fuel : ℕ) (rnd : ℕ → ℕ → Draw d) (i : ℕ) (st : McmcState d B) :
    Except PyErr (McmcState d B × ℕ) :=
  match mcmcStep e fuel (rnd (i + 1)) (i + 1) st with
  | .error x => .error x
  | .ok st' =>
    if st'.stop then .ok (st', i + 1)
    else if e.nMax ≤ i + 1 then .ok (st', i + 1)
    else mcmcLoop e fuel rnd (i + 1) st'
termination_by e.nMax - i

/-- mcmc.py:28-73, 206-246, 364-405, 528-564: the state before the loop.  The `theta` and `logdetjFlow` of the
given walkers are ignored and computed here. -/
noncomputable def mcmcInit (e : McmcEnv d B) (ws : List (Walker d B)) : McmcState d B :=
  let ws := ws.map fun w =>
    if e.kernel.hasFlow then { w with theta := (e.flowFwd w.u).1, logdetjFlow := (e.flowFwd w.u).2 }
    else { w with theta := w.u, logdetjFlow := fin 0 }
  { walkers := ws
    sigma := if e.kernel.isPcn then minimum e.proposalScale (fin 0.99) else e.proposalScale
    mu := e.tMean
    best := monitor e.kernel ws
    cnt := 0
    calls := 0
    accept := nan
    evaluated := []
    stop := false }

/-- The dictionary returned by a kernel, mcmc.py:182-183, 340-341, 505-506, 653-654 (`proposal_scale` and `efficiency`
are both `sigma`), with the ghost list of evaluated points. -/
structure McmcResult (d : ℕ) (B : Type) where
  walkers : List (Walker d B)
  efficiency : F
  accept : F
  steps : ℕ
  calls : ℕ
  proposalScale : F
  evaluated : List (Pt d)

/-- A whole kernel call: mcmc.py:8-183, 186-341, 344-506, 508-654. -/
noncomputable def mcmc (e : McmcEnv d B) (fuel : ℕ) (rnd : ℕ → ℕ → Draw d) (ws : List (Walker d B)) :
    Except PyErr (McmcResult d B) :=
  match mcmcLoop e fuel rnd 0 (mcmcInit e ws) with
  | .error x => .error x
  | .ok (st, i) => .ok { walkers := st.walkers, efficiency := st.sigma, accept := st.accept, steps := i,
                         calls := st.calls, proposalScale := st.sigma, evaluated := st.evaluated }

end Poco
