import Verif.Model.Particles

/-! The keys of the particle store, to say "for every key". -/

namespace Poco.Spec

/-- The fifteen keys, with the type of one iteration's value. -/
inductive Key (d : ℕ) (B : Type) : Type → Type 1
  | u : Key d B (List (Pt d))
  | x : Key d B (List (Pt d))
  | logdetj : Key d B (List F)
  | logl : Key d B (List F)
  | logp : Key d B (List F)
  | logw : Key d B (List F)
  | blobs : Key d B (Option (List B))
  | iter : Key d B ℕ
  | logz : Key d B F
  | calls : Key d B ℕ
  | steps : Key d B ℕ
  | efficiency : Key d B F
  | ess : Key d B F
  | accept : Key d B F
  | beta : Key d B F

/-- The entry of a dictionary under a key. -/
def Key.of {d : ℕ} {B α : Type} {f : Type → Type} : Key d B α → Cols d B f → f α
  | .u, c => c.u
  | .x, c => c.x
  | .logdetj, c => c.logdetj
  | .logl, c => c.logl
  | .logp, c => c.logp
  | .logw, c => c.logw
  | .blobs, c => c.blobs
  | .iter, c => c.iter
  | .logz, c => c.logz
  | .calls, c => c.calls
  | .steps, c => c.steps
  | .efficiency, c => c.efficiency
  | .ess, c => c.ess
  | .accept, c => c.accept
  | .beta, c => c.beta

end Poco.Spec
