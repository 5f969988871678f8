import Verif.Props.Pool
import Verif.Props.LogLike

/-! C120: what becomes of an exception the likelihood raises. -/

namespace Poco.Pool
open Spec
variable {W : ℕ} {α β : Type} {b : Bool}

/-- Inside `map` no worker has stopped. -/
theorem inMap_not_stopped {s : State W α β} (h : Reachable b s) {m : MapVars W α β} (hm : InMap s.pc m) (w : Fin W) :
    s.worker w ≠ .stopped := by
  obtain ⟨-, h⟩ := h.inv
  have key : ∀ k asg, MapInv s.queue s.worker m k asg → s.worker w ≠ .stopped := by
    intro k asg hi hw
    cases ha : asg w with
    | none => rw [(hi.idle w ha).1] at hw; cases hw
    | some t =>
      obtain ⟨-, -, a, -, hb⟩ := hi.busy w t ha
      rcases hb with ⟨h1, -⟩ | ⟨-, h1 | ⟨r, -, h1⟩ | ⟨h1, -⟩⟩ <;> rw [h1] at hw <;> cases hw
  rcases hm with hpc | ⟨v, hpc⟩ | hpc | hpc <;> rw [hpc] at h
  · obtain ⟨⟨k, asg, hi⟩, -⟩ := h; exact key k asg hi
  · obtain ⟨⟨k, asg, hi, -⟩, -⟩ := h; exact key k asg hi
  · obtain ⟨⟨k, asg, hi, -⟩, -⟩ := h; exact key k asg hi
  · obtain ⟨⟨k, asg, hi, -⟩, -⟩ := h; exact key k asg hi

/-- A step out of `map` is a return, and it records the call. -/
theorem return_records {s s' : State W α β} {a : Act W} {m : MapVars W α β} (hm : InMap s.pc m) (hs : Step b s a s')
    (hr : s'.pc = .ready) : ∃ c ∈ s'.calls, c.func = m.func ∧ c.tasks = m.tasks := by
  have inj : ∀ {m' : MapVars W α β}, s.pc = .head m' → m' = m := by
    intro m' h; rcases hm with h' | ⟨w, h'⟩ | h' | h' <;> rw [h] at h' <;> cases h' <;> rfl
  have hnr : s.pc ≠ .ready := by
    intro h; rcases hm with h' | ⟨w, h'⟩ | h' | h' <;> rw [h] at h' <;> cases h'
  cases hs with
  | finish m' hpc hp => cases inj hpc; exact ⟨_, List.mem_append_right _ (List.mem_singleton.mpr rfl), rfl, rfl⟩
  | take _ _ _ _ _ _ _ => exact absurd hr hnr
  | quit _ _ _ _ => exact absurd hr hnr
  | compute _ _ _ _ _ _ _ => exact absurd hr hnr
  | crash _ _ _ _ _ _ => exact absurd hr hnr
  | _ => cases hr

/-- **C120** is false for MPIPool: in every execution, once `map` has been called with a function that raises for one of the tasks, the
master stays inside that call for ever — it neither returns nor raises —, and no worker is ever told to stop. -/
theorem C120_mpi_never_returns {σ : ℕ → State W α β} {act : ℕ → Option (Act W)} (h : Execution b σ act) (t0 : ℕ) (m0 : MapVars W α β)
    (hm0 : InMap (σ t0).pc m0) (a : α) (ha : a ∈ m0.tasks) (hraise : m0.func a = none) (t : ℕ) (ht : t0 ≤ t) :
    (∃ m, InMap (σ t).pc m ∧ m.tasks = m0.tasks ∧ m.func = m0.func) ∧ ∀ w, (σ t).worker w ≠ .stopped := by
  have key : ∃ m, InMap (σ t).pc m ∧ m.tasks = m0.tasks ∧ m.func = m0.func := by
    induction t, ht using Nat.le_induction with
    | base => exact ⟨m0, hm0, rfl, rfl⟩
    | succ t ht ih =>
      obtain ⟨m, hm, h1, h2⟩ := ih
      cases hac : act t with
      | none => rw [h.rest t hac]; exact ⟨m, hm, h1, h2⟩
      | some c =>
        have hn : (σ (t + 1)).pc ≠ .ready := by
          intro hr
          obtain ⟨k, hk, e1, e2⟩ := return_records hm (h.step t c hac) hr
          obtain ⟨r, hrr⟩ := (C48_map (h.reachable (t + 1)) k hk).2 a (by rw [e2, h1]; exact ha)
          rw [e1, h2, hraise] at hrr
          cases hrr
        obtain ⟨⟨m', hm', h3, h4⟩, -⟩ := work_step hm (h.step t c hac) hn
        exact ⟨m', hm', h3.trans h1, h4.trans h2⟩
  obtain ⟨m, hm, -⟩ := id key
  exact ⟨key, inMap_not_stopped (h.reachable t) hm⟩

/-- One worker, one task, and a function that raises: the worker dies and nothing can move any more. -/
def raiseVars (ws : Finset (Fin 1)) (tl : List (ℕ × ℕ)) (log : List (ℕ × Fin 1)) : MapVars 1 ℕ ℕ := ⟨fun _ => none, [5], ws, tl, [none], 1, log⟩

def raiseRun : ℕ → State 1 ℕ ℕ
  | 0 => demoState .ready [] .waiting [] 0 0
  | 1 => demoState (.head (raiseVars Finset.univ [(0, 5)] [])) [] .waiting [] 0 0
  | 2 => demoState (.sent (raiseVars ∅ [] [(0, 0)]) 0) [.task 0 (fun _ => none) 5] .waiting [] 0 0
  | 3 => demoState (.sent (raiseVars ∅ [] [(0, 0)]) 0) [] (.computing 0 (fun _ => none) 5) [] 0 0
  | 4 => demoState (.probe (raiseVars ∅ [] [(0, 0)])) [] (.computing 0 (fun _ => none) 5) [] 0 0
  | _ => demoState (.probe (raiseVars ∅ [] [(0, 0)])) [] .crashed [] 0 0

def raiseAct : ℕ → Option (Act 1)
  | 0 => some .user
  | 1 => some .master
  | 2 => some (.worker 0)
  | 3 => some .master
  | 4 => some (.worker 0)
  | _ => none

theorem raise_execution : Execution false raiseRun raiseAct := by
  refine ⟨.init, ?_, ?_⟩
  · intro t a ha
    match t with
    | 0 => cases ha; exact .callMap _ (fun _ => none) [5] rfl
    | 1 => cases ha; exact demoStep (.send _ _ 0 [] 0 5 rfl (by simp [raiseVars]) (by simp [raiseVars]) rfl)
             (by simp [raiseRun, demoState, raiseVars, update_one])
    | 2 => cases ha; exact demoStep (.take _ 0 0 _ 5 [] rfl rfl) (by simp [raiseRun, demoState, raiseVars, update_one])
    | 3 => cases ha; exact .sendDone _ _ 0 rfl (Or.inr rfl)
    | 4 => cases ha; exact demoStep (.crash _ 0 0 _ 5 rfl rfl) (by simp [raiseRun, demoState, raiseVars, update_one])
    | _ + 5 => cases ha
  · intro t ha
    match t with
    | 0 | 1 | 2 | 3 | 4 => cases ha
    | _ + 5 => rfl

/-- The hypotheses of `C120_mpi_never_returns` are met. -/
example (t : ℕ) (ht : 1 ≤ t) : (∃ m, InMap (raiseRun t).pc m) ∧ ∀ w, (raiseRun t).worker w ≠ .stopped := by
  have := C120_mpi_never_returns raise_execution 1 (raiseVars Finset.univ [(0, 5)] []) (Or.inl rfl) 5 (by simp [raiseVars]) rfl t ht
  exact ⟨⟨_, this.1.choose_spec.1⟩, this.2⟩

/-- **C120** is false for MPIPool, the end: a state is reached in which `map` has not returned and no process can move. -/
theorem C120_mpi_deadlock : ∃ s : State 1 ℕ ℕ, Reachable true s ∧ (∃ m, InMap s.pc m) ∧ ∀ a s', ¬ Step true s a s' := by
  have hlift : ∀ {s : State 1 ℕ ℕ}, Reachable false s → Reachable true s := by
    intro s hs
    induction hs with
    | init => exact .init
    | step s t a _ hs ih =>
      refine .step s t a ih ?_
      cases hs with
      | callMap f ts h => exact .callMap _ f ts h
      | finish m h h' => exact .finish _ m h h'
      | send m w r tg ag h1 h2 h3 h4 => exact .send _ m w r tg ag h1 h2 h3 h4
      | noSend m h1 h2 h3 => exact .noSend _ m h1 h2 h3
      | sendDone m w h1 h2 => exact .sendDone _ m w h1 (Or.inl rfl)
      | probeFalse m h1 h2 => exact .probeFalse _ m h1 h2
      | probeTrue m w tg r h1 h2 => exact .probeTrue _ m w tg r h1 h2
      | recv m w tg r h1 h2 h3 => exact .recv _ m w tg r h1 h2 h3
      | callClose o h1 h2 h3 => exact .callClose _ o h1 h2 h3
      | closeSend w r h1 => exact .closeSend _ w r h1
      | closeSendDone w r h1 h2 => exact .closeSendDone _ w r h1 (Or.inl rfl)
      | closeDone h => exact .closeDone _ h
      | take w tg f ag q h1 h2 => exact .take _ w tg f ag q h1 h2
      | quit w q h1 h2 => exact .quit _ w q h1 h2
      | compute w tg f ag r h1 h2 => exact .compute _ w tg f ag r h1 h2
      | crash w tg f ag h1 h2 => exact .crash _ w tg f ag h1 h2
  refine ⟨raiseRun 5, hlift (raise_execution.reachable 5), ⟨_, Or.inr (Or.inr (Or.inl rfl))⟩, ?_⟩
  intro a s' hs
  generalize hd : raiseRun 5 = s at hs
  have hpc : s.pc = .probe (raiseVars ∅ [] [(0, 0)]) := by rw [← hd]; rfl
  have hw : ∀ w, s.worker w = .crashed := by intro w; rw [← hd]; rfl
  cases hs with
  | take w _ _ _ _ h1 _ => rw [hw w] at h1; cases h1
  | quit w _ h1 _ => rw [hw w] at h1; cases h1
  | compute w _ _ _ _ h1 _ => rw [hw w] at h1; cases h1
  | crash w _ _ _ h1 _ => rw [hw w] at h1; cases h1
  | probeFalse m h1 h2 =>
    rw [hpc] at h1
    cases h1
    exact h2 rfl
  | probeTrue m w tg r h1 h2 => rw [hw w] at h2; cases h2
  | _ => simp_all

end Poco.Pool

namespace Poco
variable {d : ℕ} {B : Type}

theorem mapM_first_error {α γ : Type} (f : α → Except PyErr γ) (pre : List α) (a : α) (post : List α) (e : PyErr)
    (hpre : ∀ x ∈ pre, ∃ y, f x = .ok y) (ha : f a = .error e) : (pre ++ a :: post).mapM f = .error e := by
  induction pre with
  | nil => rw [List.nil_append, List.mapM_cons, ha]; rfl
  | cons x pre ih =>
    obtain ⟨y, hy⟩ := hpre x (by simp)
    rw [List.cons_append, List.mapM_cons, hy]
    change ((pre ++ a :: post).mapM f >>= _) = _
    rw [ih fun x hx => hpre x (by simp [hx])]
    rfl

/-- **C120**, without MPI: evaluated row by row, or by a pool whose `map` raises what the built-in `map` would, or on the whole array, the
exception the likelihood raises (the one of the first failing row) is the exception of the batch. -/
theorem C120_error_reaches_caller_partial (e : LikeEnv d B) (x : List (Pt d)) (err : PyErr) :
    (∀ (pre : List (Pt d)) (a : Pt d) (post : List (Pt d)), e.vectorize = false → (∀ f xs, ∀ g ∈ e.pool, g f xs = xs.mapM f) →
      x = pre ++ a :: post → (∀ y ∈ pre, ∃ r, e.single y = .ok r) → e.single a = .error err → logLike e x = .error err) ∧
    (e.vectorize = true → e.vector x = .error err → logLike e x = .error err) := by
  constructor
  · intro pre a post hv hp hx hpre ha
    have hm := mapM_first_error e.single pre a post err hpre ha
    unfold logLike
    rw [if_neg (by simp [hv]), hx]
    cases hpool : e.pool with
    | none => dsimp only; rw [hm]; rfl
    | some g => dsimp only; rw [hp _ _ g (by simp [hpool]), hm]; rfl
  · intro hv he
    unfold logLike
    rw [if_pos hv, he]
    rfl

open Classical in
/-- The hypotheses are met: the second of three rows raises. -/
example : logLike (d := 1) (B := Unit) ⟨fun y => if y 0 = F.fin 2 then .error .valueError else .ok (.scalar (y 0)), fun _ => .ok [], false, none⟩
    [fun _ => F.fin 1, fun _ => F.fin 2, fun _ => F.fin 3] = .error .valueError := by
  refine (C120_error_reaches_caller_partial _ _ _).1 [fun _ => F.fin 1] (fun _ => F.fin 2) [fun _ => F.fin 3] rfl (by simp) rfl ?_ ?_
  · intro y hy
    rw [List.mem_singleton] at hy
    subst hy
    exact ⟨_, if_neg (by simp)⟩
  · exact if_pos rfl

end Poco
