import Verif.Model.Memory
import Verif.Model.Posterior

/-!
# What `posterior` and `results` hand to the caller

Arrays are in memory as in `Model/Memory`.  Not represented: blobs that are themselves mutable objects (object arrays), whose
entries the returned arrays share with the store.
-/

namespace Poco
open F

variable {d : ℕ} {B Φ : Type}

/-- The local arrays of `posterior` (sampler.py:971-986). -/
structure PostRefs where
  samples : View
  weights : View
  logw : View
  logl : View
  logp : View
  blobs : Option View

/-- What they contain. -/
def PostRefs.see (h : Heap d B) (p : PostRefs) : Post d B :=
  { samples := h.read .pts p.samples, weights := h.read .nums p.weights, logw := h.read .nums p.logw
    logl := h.read .nums p.logl, logp := h.read .nums p.logp, blobs := p.blobs.map (h.read .blobs) }

/-- The returned tuple. -/
structure OutRefs where
  samples : View
  weights : Option View
  logl : View
  logp : View
  blobs : Option View

/-- What it contains. -/
def OutRefs.see (h : Heap d B) (p : OutRefs) : PostOut d B :=
  { samples := h.read .pts p.samples, weights := p.weights.map (h.read .nums), logl := h.read .nums p.logl
    logp := h.read .nums p.logp, blobs := p.blobs.map (h.read .blobs) }

/-- The arrays of the tuple. -/
def OutRefs.arrays (p : OutRefs) : List (Kind × View) :=
  [(.pts, p.samples), (.nums, p.logl), (.nums, p.logp)] ++ (p.weights.map fun v => (Kind.nums, v)).toList ++
    (p.blobs.map fun v => (Kind.blobs, v)).toList

/-- Six new arrays: sampler.py:971-975 `get(..., flat=True)` is `np.concatenate` (particles.py:209), 976-977 `logw` and `weights`
are results of arithmetic; 980-986 fancy indexing, and the weights from `trim_weights` (tools.py) are results of arithmetic. -/
def newPost (h : Heap d B) (p : Post d B) : Heap d B × PostRefs :=
  let (h, samples) := h.new .pts p.samples
  let (h, weights) := h.new .nums p.weights
  let (h, logw) := h.new .nums p.logw
  let (h, logl) := h.new .nums p.logl
  let (h, logp) := h.new .nums p.logp
  let (h, blobs) := newBlobs h p.blobs
  (h, ⟨samples, weights, logw, logl, logp, blobs⟩)

/-- sampler.py:968-977. -/
noncomputable def postCollectR (a : PostArgs) (r : RefSampler d B Φ) : Except PyErr (Heap d B × PostRefs) :=
  (postCollect a r.see).map (newPost r.heap)

/-- sampler.py:979-986; without trimming the arrays stay the same ones. -/
noncomputable def postTrimR (a : PostArgs) (h : Heap d B) (p : PostRefs) : Except PyErr (Heap d B × PostRefs) :=
  if a.trim then (postTrim a (p.see h)).map (newPost h) else .ok (h, p)

/-- sampler.py:988-1010: fancy indexing makes new arrays, otherwise the local arrays themselves are returned. -/
noncomputable def postReturnR (kind : ResampleKind) (us : ℕ → ℝ) (u : ℝ) (a : PostArgs) (h : Heap d B) (p : PostRefs) :
    Except PyErr (Heap d B × OutRefs) :=
  if a.resample then do
    let o ← postReturn kind us u a (p.see h)
    let (h, samples) := h.new .pts o.samples
    let (h, logl) := h.new .nums o.logl
    let (h, logp) := h.new .nums o.logp
    let (h, blobs) := newBlobs h o.blobs
    return (h, ⟨samples, none, logl, logp, blobs⟩)
  else .ok (h, ⟨p.samples, some (if a.returnLogw then p.logw else p.weights), p.logl, p.logp, p.blobs⟩)

/-- sampler.py:942-1010 `posterior`: memory afterwards, and the references returned. -/
noncomputable def posteriorR (e : SamplerEnv d B Φ) (us : ℕ → ℝ) (u : ℝ) (a : PostArgs) (r : RefSampler d B Φ) :
    Except PyErr (Heap d B × OutRefs) := do
  let (h, p) ← postCollectR a r
  let (h, p) ← postTrimR a h p
  postReturnR e.resample us u a h p

/-! ### results -/

/-- The dictionary `results_dict`: the columns, as copies, and the entry `logw` that replaces the column of that name once it
has been computed. -/
structure ResRefs where
  its : List RefIter
  logw : Option View

/-- Its arrays. -/
def RefIter.arrays (r : RefIter) : List (Kind × View) :=
  [(.pts, r.u), (.pts, r.x), (.nums, r.logdetj), (.nums, r.logl), (.nums, r.logp), (.nums, r.logw)] ++
    (r.blobs.map fun v => (Kind.blobs, v)).toList

def ResRefs.arrays (p : ResRefs) : List (Kind × View) :=
  p.its.flatMap RefIter.arrays ++ (p.logw.map fun v => (Kind.nums, v)).toList

/-- particles.py:211 `np.asarray` of a list of arrays: a new array.  Simplification: one array for each iteration instead of one
for all; the columns with one number per iteration are kept by value. -/
def copyIter (h : Heap d B) (r : RefIter) : Heap d B × RefIter :=
  let it := r.see h
  let (h, u) := h.new .pts it.u
  let (h, x) := h.new .pts it.x
  let (h, logdetj) := h.new .nums it.logdetj
  let (h, logl) := h.new .nums it.logl
  let (h, logp) := h.new .nums it.logp
  let (h, logw) := h.new .nums it.logw
  let (h, blobs) := newBlobs h it.blobs
  (h, { r with u, x, logdetj, logl, logp, logw, blobs })

/-- particles.py:293-294, all iterations. -/
def copyHist (h : Heap d B) : List RefIter → Heap d B × List RefIter
  | [] => (h, [])
  | r :: rs =>
    let (h, r') := copyIter h r
    let (h, rs') := copyHist h rs
    (h, r' :: rs')

/-- sampler.py:1012-1021, particles.py:291-301 `results`: memory and `results_dict` afterwards, and the outcome.  The dictionary
is stored before it is complete (292), and it is itself what the caller gets (301). -/
noncomputable def resultsR (r : RefSampler d B Φ) (cache : Option ResRefs) : Heap d B × Option ResRefs × Except PyErr ResRefs :=
  match cache with
  | some c => (r.heap, some c, .ok c)
  | none =>
    let (h, its) := copyHist r.heap r.hist
    match computeLogwLogz r.see.particles.past (fin 1) with
    | .error x => (h, some ⟨its, none⟩, .error x)
    | .ok (logw, _) =>
      let (h, v) := h.new .nums logw
      (h, some ⟨its, some v⟩, .ok ⟨its, some v⟩)

end Poco
