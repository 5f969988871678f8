import Verif.Props.Retry

/-! Runs with an interrupt: choosing its time. -/

namespace Poco
open F Spec

variable {d : ℕ} {B Φ : Type} {α β : Type}

/-- An interrupt that comes after the end of this piece makes no difference to it. -/
def Timed (m : PyM d B Φ α) : Prop := ∀ s v k s', m none s = .ok (v, k) s' → k = none ∧ ∃ n, ∀ j, m (some (n + j)) s = .ok (v, some j) s'

/-- An interrupt at the right time makes this piece raise `x` and leave `s'`. -/
def Fires (m : PyM d B Φ α) (x : PyErr) (s s' : Sampler d B Φ) : Prop := ∃ n, m (some n) s = .error x s'

theorem bindX_inv {m : PyM d B Φ α} {f : α → PyM d B Φ β} {k : Option ℕ} {r : β × Option ℕ} {s s' : Sampler d B Φ} (h : (m >>= f) k s = .ok r s') :
    ∃ v k1 s1, m k s = .ok (v, k1) s1 ∧ f v k1 s1 = .ok r s' := by
  change EStateM.bind (m k) (fun p => f p.1 p.2) s = _ at h
  unfold EStateM.bind at h
  cases hm : m k s with
  | ok p s1 =>
    rw [hm] at h
    exact ⟨p.1, p.2, s1, rfl, h⟩
  | error x s1 => rw [hm] at h; cases h

theorem Timed.bind {m : PyM d B Φ α} {f : α → PyM d B Φ β} (hm : Timed m) (hf : ∀ v, Timed (f v)) : Timed (m >>= f) := by
  intro s v k s' h
  obtain ⟨w, k1, s1, h1, h2⟩ := bindX_inv h
  obtain ⟨rfl, n1, g1⟩ := hm s w k1 s1 h1
  obtain ⟨rfl, n2, g2⟩ := hf w s1 v k s' h2
  exact ⟨rfl, n1 + n2, fun j => by rw [Nat.add_assoc, bindX_ok (g1 (n2 + j)), g2 j]⟩

theorem Timed.pure (v : α) : Timed (Pure.pure v : PyM d B Φ α) := by
  intro s w k s' h
  cases h
  exact ⟨rfl, 0, fun j => by rw [Nat.zero_add]; rfl⟩

theorem Timed.throw (x : PyErr) : Timed (MonadExcept.throw x : PyM d B Φ α) := fun _ _ _ _ h => by cases h

theorem Timed.look : Timed (PyM.look : PyM d B Φ _) := by
  intro s w k s' h
  cases h
  exact ⟨rfl, 0, fun j => by rw [Nat.zero_add]; rfl⟩

theorem Timed.changeAt (m : Moment) (f : Sampler d B Φ → Sampler d B Φ) : Timed (PyM.changeAt m f) := by
  intro s w k s' h
  cases h
  exact ⟨rfl, 1, fun j => by rw [Nat.add_comm]; rfl⟩

theorem Timed.change (f : Sampler d B Φ → Sampler d B Φ) : Timed (PyM.change f) := .changeAt _ f

theorem Timed.assign (f : Cur d B → Cur d B) : Timed (PyM.assign f : PyM d B Φ Unit) := .change _

theorem Timed.append (m : Moment) (f : Cols d (List B) List → Cols d (List B) List) : Timed (PyM.append m f : PyM d B Φ Unit) := .changeAt m _

theorem Timed.callAt (m : Moment) (a : Except PyErr α) : Timed (PyM.callAt m a : PyM d B Φ α) := by
  intro s w k s' h
  cases a with
  | error x => cases h
  | ok v =>
    cases h
    exact ⟨rfl, 1, fun j => by rw [Nat.add_comm]; rfl⟩

theorem Timed.call (a : Except PyErr α) : Timed (PyM.call a : PyM d B Φ α) := .callAt _ a

theorem Timed.fit (a : Except PyErr α) (left : Sampler d B Φ → Sampler d B Φ) : Timed (PyM.fit a left) := by
  intro s w k s' h
  cases a with
  | error x => cases h
  | ok v =>
    cases h
    exact ⟨rfl, 1, fun j => by rw [Nat.add_comm]; rfl⟩

theorem Timed.ite {p : Prop} [Decidable p] {m m' : PyM d B Φ α} (h : Timed m) (h' : Timed m') : Timed (if p then m else m') := by
  split
  · exact h
  · exact h'

/-- Goes through the operations of a piece. -/
macro "timed" : tactic => `(tactic| repeat' first
  | with_reducible exact Timed.pure _ | with_reducible exact Timed.throw _ | with_reducible exact Timed.look | with_reducible exact Timed.call _
  | with_reducible exact Timed.callAt _ _ | with_reducible exact Timed.change _ | with_reducible exact Timed.changeAt _ _ | with_reducible exact Timed.assign _
  | with_reducible exact Timed.append _ _ | with_reducible exact Timed.fit _ _ | with_reducible refine Timed.bind ?_ fun _ => ?_ | with_reducible refine Timed.ite ?_ ?_)

variable {e : SamplerEnv d B Φ} {rnd : Rnd d Φ} {lo : Leftover d Φ} {fuel : ℕ}

theorem Timed.runInitX (a : RunArgs) : Timed (Poco.runInitX e rnd a : PyM d B Φ Unit) := by
  unfold Poco.runInitX
  timed

theorem Timed.replaceInfX (i : ℕ) (b : Batch d B) (hb : Bool) (f : ℕ → ℕ) : Timed (Poco.replaceInfX i b hb f : PyM d B Φ _) := by
  unfold Poco.replaceInfX
  timed

theorem Timed.storeX (it : Iter d (List B)) : Timed (Poco.storeX it : PyM d B Φ Unit) := by
  unfold Poco.storeX
  timed

theorem Timed.warmupStepX (i : ℕ) : Timed (Poco.warmupStepX e rnd i : PyM d B Φ Unit) := by
  unfold Poco.warmupStepX
  timed
  · exact .replaceInfX _ _ _ _
  · exact .storeX _

theorem Timed.warmupLoopX (k : Option ℕ) (t0 n i : ℕ) : Timed (Poco.warmupLoopX e rnd k t0 n i : PyM d B Φ Unit) := by
  induction n generalizing i with
  | zero => exact .pure _
  | succ n ih =>
    unfold Poco.warmupLoopX
    timed
    · exact .warmupStepX i
    · exact ih _

theorem Timed.runWarmupX (a : RunArgs) (t0 : ℕ) : Timed (Poco.runWarmupX e rnd a t0 : PyM d B Φ Unit) := by
  unfold Poco.runWarmupX
  timed
  all_goals exact .warmupLoopX _ _ _ _

theorem Timed.reweightX : Timed (Poco.reweightX e fuel : PyM d B Φ Unit) := by
  unfold Poco.reweightX
  timed

theorem Timed.trainX : Timed (Poco.trainX e rnd lo : PyM d B Φ Unit) := by
  unfold Poco.trainX Poco.trainFlowX Poco.fitThetaX Poco.fitUX
  timed

theorem Timed.resampleX : Timed (Poco.resampleX e rnd : PyM d B Φ Unit) := by
  unfold Poco.resampleX
  timed

theorem Timed.mutateX : Timed (Poco.mutateX e rnd fuel : PyM d B Φ Unit) := by
  unfold Poco.mutateX Poco.writeBackX
  timed

/-! ### when it fires -/

theorem Fires.after {m : PyM d B Φ α} {f : α → PyM d B Φ β} {x : PyErr} {v : α} {k : Option ℕ} {s s1 s2 : Sampler d B Φ} (hm : Timed m)
    (h : m none s = .ok (v, k) s1) (hf : Fires (f v) x s1 s2) : Fires (m >>= f) x s s2 := by
  obtain ⟨-, n, hn⟩ := hm s v k s1 h
  obtain ⟨j, hj⟩ := hf
  exact ⟨n + j, by rw [bindX_ok (hn j), hj]⟩

theorem Fires.inside {m : PyM d B Φ α} {f : α → PyM d B Φ β} {x : PyErr} {s s1 : Sampler d B Φ} (h : Fires m x s s1) : Fires (m >>= f) x s s1 := by
  obtain ⟨n, hn⟩ := h
  exact ⟨n, bindX_error hn⟩

theorem Fires.look {f : Sampler d B Φ → PyM d B Φ β} {x : PyErr} {s s1 : Sampler d B Φ} (h : Fires (f s) x s s1) : Fires (PyM.look >>= f) x s s1 :=
  .after .look rfl h

theorem Fires.call {a : Except PyErr α} {v : α} {f : α → PyM d B Φ β} {x : PyErr} {s s1 : Sampler d B Φ} (ha : a = .ok v) (h : Fires (f v) x s s1) :
    Fires (PyM.call a >>= f) x s s1 := .after (.call a) (by rw [ha]; rfl) h

theorem Fires.change {g : Sampler d B Φ → Sampler d B Φ} {f : Unit → PyM d B Φ β} {x : PyErr} {s s1 : Sampler d B Φ} (h : Fires (f ()) x (g s) s1) :
    Fires (PyM.change g >>= f) x s s1 := .after (.change g) rfl h

end Poco
