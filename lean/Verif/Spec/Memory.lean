import Verif.Model.Memory
import Verif.Spec.Run

/-! # Specification: manners of likelihoods, and samplers in memory -/

namespace Poco
open F

variable {d : ℕ} {B Φ : Type}

/-- The reference shows an existing array, not the user's. -/
def Live (b : Option ℕ) (h : Heap d B) (k : Kind) (v : View) : Prop := v.base < h.next ∧ (k = .nums → b ≠ some v.base)

/-- The user's array, if any, is an existing one. -/
def HasBuffer (b : Option ℕ) (h : Heap d B) : Prop := ∀ a, b = some a → a < h.next

/-- All references of an iteration show existing arrays, none of them the user's. -/
def RefIter.Alive (b : Option ℕ) (h : Heap d B) (r : RefIter) : Prop :=
  Live b h .pts r.u ∧ Live b h .pts r.x ∧ Live b h .nums r.logdetj ∧ Live b h .nums r.logl ∧ Live b h .nums r.logp ∧
    Live b h .nums r.logw ∧ ∀ v, r.blobs = some v → Live b h .blobs v

/-- All references of the sampler show existing arrays, none of them the user's. -/
structure Held (b : Option ℕ) (r : RefSampler d B Φ) : Prop where
  buffer : HasBuffer b r.heap
  prior : ∀ p, r.prior = some p → Live b r.heap .pts p
  hist : ∀ it ∈ r.hist, it.Alive b r.heap
  cur : ∀ it, r.cur = some it → it.Alive b r.heap

end Poco

namespace Poco.Spec
open F

variable {d : ℕ} {B Φ : Type}

/-- The likelihood leaves no traces in the sampler's memory: it does not write to the array it is called with (with a pool
it may, since the workers have copies), and if it is vectorised it returns a new array from every call. -/
def Polite (L : LikeEnv d B) (m : Manners d) : Prop :=
  if L.vectorize then (∀ xs, m.array xs = xs) ∧ m.buffer = none
  else L.pool.isSome = true ∨ ∀ x, m.row x = x

/-- The likelihood may write to the array it is called with (that does not change the number of rows), but a vectorised one
returns a new array from every call. -/
def NewArrays (L : LikeEnv d B) (m : Manners d) : Prop :=
  L.vectorize = true → (∀ xs, (m.array xs).length = xs.length) ∧ m.buffer = none

/-- The array from which a vectorised likelihood returns its results, if it always uses the same. -/
def reused (L : LikeEnv d B) (m : Manners d) : Option ℕ := if L.vectorize then m.buffer else none

/-- A sampler as the constructor leaves it, in a memory with any contents. -/
def asNew (h : Heap d B) (s : Sampler d B Φ) : RefSampler d B Φ :=
  { heap := h, prior := none, hist := [], cur := none, weights := none, rest := s }

/-- Any number of calls of `run`, one after the other, each with its own arguments and random draws; on values. -/
noncomputable def runs (e : SamplerEnv d B Φ) (fuel n : ℕ) : List (RunArgs × Rnd d Φ) → Sampler d B Φ → Except PyErr (Sampler d B Φ)
  | [], s => .ok s
  | c :: cs, s => (run e c.2 fuel n c.1 s).2 >>= runs e fuel n cs

/-- The same in memory. -/
noncomputable def runsInMemory (e : SamplerEnv d B Φ) (m : Manners d) (fuel n : ℕ) :
    List (RunArgs × Rnd d Φ) → RefSampler d B Φ → Except PyErr (RefSampler d B Φ)
  | [], r => .ok r
  | c :: cs, r => runR e m c.2 fuel n c.1 r >>= runsInMemory e m fuel n cs

/-- The iterations in the store, as one sees them. -/
def shown (r : RefSampler d B Φ) : List (Iter d (List B)) := r.hist.map (RefIter.see r.heap)

end Poco.Spec
