import Verif.Model.Sampler
import Verif.Model.Config

/-!
# Model of `Flow.fit` (pocomc/flow.py:165-384) and of `flow_numpy_wrapper` (pocomc/tools.py:318-349)

The network itself is a black box: `Ψ` are its parameters (the `state_dict`), `Ω` the state of optimiser and scheduler.
Not modelled: float32 casts, what `backward`, `clip_grad_norm_` and `AdamW` do to the parameters, printing.
-/

namespace Poco
open F

/-- The black boxes of training. -/
structure FlowNet (d : ℕ) (Ψ Ω : Type) where
  /-- `self.flow().log_prob` of one point -/
  logProb : Ψ → Pt d → F
  /-- `loss.backward(); clip_grad_norm_(...); optimizer.step()` (flow.py:317-319) for the loss on this batch -/
  optim : Ω → Ψ → List (Pt d × F) → Ω × Ψ
  /-- `scheduler.step(loss)` (flow.py:352-355) -/
  sched : Ω → F → Ω
  /-- sum of absolute values and of squares of the weights (flow.py:406-414) -/
  l1 : Ψ → F
  l2 : Ψ → F

/-- The arguments of `Flow.fit` (flow.py:165-181).  `patience` is an integer. -/
structure FitArgs where
  validationSplit : ℝ
  epochs : ℕ
  batchSize : ℕ
  patience : ℕ
  laplaceScale : Option F
  gaussianScale : Option F
  annealing : Bool
  noise : Option F
  shuffle : Bool

/-- The random draws: `torch.randperm` (flow.py:235), the order in which a shuffling `DataLoader` visits its data set
(epoch, validation pass?), and `torch.randn_like` (flow.py:307, 336; epoch, validation pass?, position in that order). -/
structure FitRnd (d : ℕ) where
  perm : List ℕ
  visit : ℕ → Bool → List ℕ
  noise : ℕ → Bool → ℕ → Pt d

variable {d : ℕ} {Ψ Ω : Type}

/-- flow.py:234-238: the shuffled samples and weights. -/
def fitShuffle {α : Type} (shuffle : Bool) (perm : List ℕ) (l : List α) : Except PyErr (List α) :=
  if shuffle then gather l perm else .ok l

/-- flow.py:237-238: the weights, if there are any. -/
def shuffleWeights (shuffle : Bool) (perm : List ℕ) : Option (List F) → Except PyErr (Option (List F))
  | none => .ok none
  | some w => (fitShuffle shuffle perm w).map some

/-- `TensorDataset(x)` or `TensorDataset(x, weights)`; without weights the second entry is a dummy that is never used.
Different lengths are an AssertionError (written ValueError). -/
def tensorDataset (x : List (Pt d)) : Option (List F) → Except PyErr (List (Pt d × F))
  | none => .ok (x.map fun p => (p, fin 1))
  | some w => if x.length = w.length then .ok (x.zip w) else .error .valueError

/-- flow.py:247-266: training set, and validation set if there is one.  `int(validation_split * n_samples)` is a slice
bound; a bound beyond the end is the end. -/
noncomputable def fitSplit (split : ℝ) (x : List (Pt d)) (w : Option (List F)) :
    Except PyErr (List (Pt d × F) × Option (List (Pt d × F))) :=
  if 0 < split then do
    let k := (truncInt (split * x.length)).toNat
    let train ← tensorDataset (x.take k) (w.map (·.take k))
    let valid ← tensorDataset (x.drop k) (w.map (·.drop k))
    return (train, some valid)
  else do
    let train ← tensorDataset x w
    return (train, none)

/-- Consecutive batches of `k + 1` rows, the last one possibly shorter. -/
def chunks {α : Type} (k : ℕ) : List α → List (List α)
  | [] => []
  | a :: l => (a :: l).take (k + 1) :: chunks k ((a :: l).drop (k + 1))
termination_by l => l.length
decreasing_by simp

/-- The batches a `DataLoader(dataset, batch_size, shuffle)` yields in one pass.  A batch size of 0 is a ValueError. -/
def loader {α : Type} (batchSize : ℕ) (shuffle : Bool) (visit : List ℕ) (ds : List α) : Except PyErr (List (List α)) :=
  if batchSize = 0 then .error .valueError
  else (fitShuffle shuffle visit ds).map (chunks (batchSize - 1))

/-- `torch.linalg.norm(x[i] - x, axis=1)`, flow.py:243. -/
noncomputable def distances (xs : List (Pt d)) (p : Pt d) : List F :=
  xs.map fun q => sqrt (sum (List.ofFn fun i => sq (p i - q i)))

/-- flow.py:240-245: `mean_min_dist`.  The code averages `min_dist`, the distances from the *last* point, and not `min_dists`.
A point without any other point different from it makes `torch.min` fail (RuntimeError, written ValueError), and so does an
empty data set. -/
noncomputable def meanMinDist (xs : List (Pt d)) : Except PyErr F := do
  let _ ← xs.mapM fun p =>
    if ((distances xs p).filter fun t => decide (t > fin 0)) = [] then Except.error PyErr.valueError else .ok ()
  match xs.getLast? with
  | none => .error .valueError
  | some p => .ok (mean (distances xs p))

/-- flow.py:240: only computed if there is noise. -/
noncomputable def noiseScale (noise : Option F) (xs : List (Pt d)) : Except PyErr F :=
  if noise.isSome then meanMinDist xs else .ok (fin 0)

/-- flow.py:304-307, 333-336: the batch with noise added; `off` is the position of its first row. -/
noncomputable def addNoise (noise : Option F) (scale : F) (draw : ℕ → Pt d) (off : ℕ) (batch : List (Pt d × F)) :
    List (Pt d × F) :=
  match noise with
  | none => batch
  | some s => batch.mapIdx fun j q => (fun i => q.1 i + s * scale * draw (off + j) i, q.2)

/-- flow.py:387-422 `regularization_loss`. -/
noncomputable def regularizationLoss (net : FlowNet d Ψ Ω) (psi : Ψ) (laplace gaussian : Option F) : F :=
  let total := fin 0
  let total := match laplace with
    | none => total
    | some s => total + -(net.l1 psi) / s
  match gaussian with
  | none => total
  | some s => total + -(net.l2 psi) / (fin 2 * sq s)

/-- flow.py:308-315, 337-344: the loss on one batch. -/
noncomputable def batchLoss (net : FlowNet d Ψ Ω) (a : FitArgs) (weighted : Bool) (psi : Ψ) (batch : List (Pt d × F)) : F :=
  let loss := if weighted then
      sum (batch.map fun q => -(net.logProb psi q.1) * q.2 * fin 1000) / sum (batch.map (·.2))
    else -(sum (batch.map fun q => net.logProb psi q.1))
  if a.laplaceScale.isSome || a.gaussianScale.isSome then
    loss - regularizationLoss net psi a.laplaceScale a.gaussianScale
  else loss

/-- flow.py:301-321: one pass over the training batches, from position `off`; adds up the losses. -/
noncomputable def trainPass (net : FlowNet d Ψ Ω) (a : FitArgs) (weighted : Bool) (scale : F) (draw : ℕ → Pt d) :
    List (List (Pt d × F)) → ℕ → Ω → Ψ → F → Ω × Ψ × F
  | [], _, opt, psi, acc => (opt, psi, acc)
  | b :: bs, off, opt, psi, acc =>
    let nb := addNoise a.noise scale draw off b
    let l := batchLoss net a weighted psi nb
    let (opt, psi) := net.optim opt psi nb
    trainPass net a weighted scale draw bs (off + b.length) opt psi (acc + l)

/-- flow.py:331-346: one pass over the validation batches. -/
noncomputable def validPass (net : FlowNet d Ψ Ω) (a : FitArgs) (weighted : Bool) (scale : F) (draw : ℕ → Pt d) (psi : Ψ) :
    List (List (Pt d × F)) → ℕ → F → F
  | [], _, acc => acc
  | b :: bs, off, acc =>
    let nb := addNoise a.noise scale draw off b
    validPass net a weighted scale draw psi bs (off + b.length) (acc + batchLoss net a weighted psi nb)

/-- `loss / len(dataset)`: a Python division, ZeroDivisionError for an empty data set. -/
noncomputable def perSample (loss : F) (n : ℕ) : Except PyErr F :=
  if n = 0 then .error .zeroDivision else .ok (loss / F.ofNat n)

/-- The variables of the epoch loop.  `models` (the parameters after each epoch) and `early` are ghost variables. -/
structure FitState (Ψ Ω : Type) where
  params : Ψ
  opt : Ω
  loss : List F
  valLoss : List F
  bestEpoch : ℕ
  bestLoss : F
  bestModel : Ψ
  models : List Ψ
  early : Bool

/-- What is prepared before the loop. -/
structure FitData (d : ℕ) where
  train : List (Pt d × F)
  valid : Option (List (Pt d × F))
  weighted : Bool
  scale : F

/-- flow.py:327-350: the validation loss, if there is a validation set. -/
noncomputable def validate (net : FlowNet d Ψ Ω) (a : FitArgs) (data : FitData d) (rnd : FitRnd d) (epoch : ℕ) (psi : Ψ) :
    Except PyErr (Option F) :=
  match data.valid with
  | none => .ok none
  | some v => do
    let bs ← loader a.batchSize a.shuffle (rnd.visit epoch true) v
    let l ← perSample (validPass net a data.weighted data.scale (rnd.noise epoch true) psi bs 0 (fin 0)) v.length
    return some l

/-- flow.py:298-355: one epoch up to the monitoring: new optimiser state, new parameters, training and validation loss. -/
noncomputable def fitEpoch (net : FlowNet d Ψ Ω) (a : FitArgs) (data : FitData d) (rnd : FitRnd d) (epoch : ℕ)
    (opt : Ω) (psi : Ψ) : Except PyErr (Ω × Ψ × F × Option F) := do
  let bs ← loader a.batchSize a.shuffle (rnd.visit epoch false) data.train
  let r := trainPass net a data.weighted data.scale (rnd.noise epoch false) bs 0 opt psi (fin 0)
  let trainLoss ← perSample r.2.2 data.train.length
  let valLoss ← validate net a data rnd epoch r.2.1
  let opt := if a.annealing then net.sched r.1 (valLoss.getD trainLoss) else r.1
  return (opt, r.2.1, trainLoss, valLoss)

/-- flow.py:325, 350, 363-367: the losses are recorded and the best epoch updated. -/
noncomputable def fitMonitor (epoch : ℕ) (st : FitState Ψ Ω) (opt : Ω) (psi : Ψ) (trainLoss : F) (valLoss : Option F) :
    FitState Ψ Ω :=
  let st := { st with params := psi, opt := opt, loss := st.loss ++ [trainLoss], valLoss := st.valLoss ++ valLoss.toList
                      models := st.models ++ [psi] }
  let monitored := valLoss.getD trainLoss
  if monitored < st.bestLoss then { st with bestLoss := monitored, bestEpoch := epoch, bestModel := psi } else st

/-- flow.py:297-374: the epoch loop with `n` epochs left. -/
noncomputable def fitLoop (net : FlowNet d Ψ Ω) (a : FitArgs) (data : FitData d) (rnd : FitRnd d) :
    ℕ → ℕ → FitState Ψ Ω → Except PyErr (FitState Ψ Ω)
  | 0, _, st => .ok st
  | n + 1, epoch, st => do
    let (opt, psi, trainLoss, valLoss) ← fitEpoch net a data rnd epoch st.opt st.params
    let st := fitMonitor epoch st opt psi trainLoss valLoss
    if epoch - st.bestEpoch ≥ 3 * a.patience / 2 then .ok { st with params := st.bestModel, early := true }
    else fitLoop net a data rnd n (epoch + 1) st

/-- flow.py:230-266: the data of the training loop. -/
noncomputable def fitData (a : FitArgs) (rnd : FitRnd d) (x : List (Pt d)) (w : Option (List F)) : Except PyErr (FitData d) := do
  let x ← fitShuffle a.shuffle rnd.perm x
  let w ← shuffleWeights a.shuffle rnd.perm w
  let scale ← noiseScale a.noise x
  let (train, valid) ← fitSplit a.validationSplit x w
  return { train, valid, weighted := w.isSome, scale }

/-- flow.py:165-384 `Flow.fit`.  The result holds the parameters the flow is left with and the loss history. -/
noncomputable def fit (net : FlowNet d Ψ Ω) (a : FitArgs) (rnd : FitRnd d) (x : List (Pt d)) (w : Option (List F)) (psi : Ψ)
    (opt : Ω) : Except PyErr (FitState Ψ Ω) := do
  let data ← fitData a rnd x w
  fitLoop net a data rnd a.epochs 0
    { params := psi, opt := opt, loss := [], valLoss := [], bestEpoch := 0, bestLoss := pinf, bestModel := psi
      models := [], early := false }

/-! ### the wrapper -/

/-- A zuko transform: the map with its log-Jacobian (`call_and_ladj`), and the inverse map.  torch defines the log-Jacobian of
the inverse transform at `y` as minus that of the transform at the preimage. -/
structure FlowTransform (d : ℕ) where
  call : Pt d → Pt d
  ladj : Pt d → F
  inv : Pt d → Pt d

/-- flow.py:99-114 `Flow.forward`. -/
def FlowTransform.forward (t : FlowTransform d) (x : Pt d) : Pt d × F := (t.call x, t.ladj x)

/-- flow.py:116-132 `Flow.inverse`. -/
def FlowTransform.inverse (t : FlowTransform d) (u : Pt d) : Pt d × F := (t.inv u, -(t.ladj (t.inv u)))

/-- tools.py:335-341 `flow_numpy_wrapper.forward`. -/
def wrapperForward (t : FlowTransform d) (v : Pt d) : Pt d × F := ((t.forward v).1, -(t.forward v).2)

/-- tools.py:343-349 `flow_numpy_wrapper.inverse`. -/
def wrapperInverse (t : FlowTransform d) (theta : Pt d) : Pt d × F := t.inverse theta

end Poco
