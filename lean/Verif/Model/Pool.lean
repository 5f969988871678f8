import Mathlib.Data.Fintype.Basic
import Mathlib.Data.Fin.Basic
import Mathlib.Data.List.Basic

/-!
# Model of `pocomc/parallel.py` (MPIPool) as a transition system

One master and `W` workers (the ranks 1 to `W`).  Each step of the system is one MPI call or one piece of local code of
one process, so that the executions of the system are all interleavings.

MPI as modelled: messages from the master to one worker arrive in the order sent (MPI's non-overtaking rule, the same
communicator and a receive with `ANY_TAG`); `send` may return at once (`buffered = true`) or only when the message has been
received; `ssend` returns when the message has been received; `Probe` returns only when a message is there; `Iprobe` may
return False although a message is there; a receive from `ANY_SOURCE` takes the message of any worker.  Not modelled: the upper
bound MPI puts on tags, pickling errors, calling `map` after `close`.
-/

namespace Poco.Pool

variable {W : ℕ} {α β : Type}

/-- What the master sends (parallel.py:123, 132 the tag, the function and its argument; parallel.py:162 `None`). -/
inductive Msg (α β : Type)
  | task (tag : ℕ) (func : α → Option β) (arg : α)
  | quit

/-- Where a worker is in `wait` (parallel.py:71-90).  A function that raises (`none`) ends the worker process. -/
inductive WState (α β : Type)
  /-- in `recv` (parallel.py:81) -/
  | waiting
  /-- about to compute `func(arg)` (parallel.py:88) -/
  | computing (tag : ℕ) (func : α → Option β) (arg : α)
  /-- in `ssend` (parallel.py:90) -/
  | sending (tag : ℕ) (result : β)
  /-- the function raised -/
  | crashed
  /-- out of `wait` (parallel.py:83-85) -/
  | stopped

/-- The local variables of `map` (parallel.py:122-125).  `func`, `tasks` are the arguments, `log` is a ghost variable: which
task was sent to which worker. -/
structure MapVars (W : ℕ) (α β : Type) where
  func : α → Option β
  tasks : List α
  workerset : Finset (Fin W)
  tasklist : List (ℕ × α)
  resultlist : List (Option β)
  pending : ℕ
  log : List (ℕ × Fin W)

/-- Where the master is. -/
inductive PC (W : ℕ) (α β : Type)
  /-- between calls -/
  | ready
  /-- at `while pending` (parallel.py:127) -/
  | head (m : MapVars W α β)
  /-- in `send` to `w` (parallel.py:132) -/
  | sent (m : MapVars W α β) (w : Fin W)
  /-- at the probe (parallel.py:134-139) -/
  | probe (m : MapVars W α β)
  /-- at `recv` (parallel.py:141-143) -/
  | recv (m : MapVars W α β)
  /-- at the loop of `close` (parallel.py:161) with these workers left -/
  | closing (rest : List (Fin W))
  /-- in `send` to `w` (parallel.py:162) -/
  | closeSent (rest : List (Fin W)) (w : Fin W)
  /-- `close` has returned -/
  | closed

/-- A completed call of `map`. -/
structure Call (W : ℕ) (α β : Type) where
  func : α → Option β
  tasks : List α
  results : List (Option β)
  log : List (ℕ × Fin W)

/-- The whole system.  `calls`, `quits` (quit messages sent to a worker so far) and `closes` (calls of `close` begun) are
ghost variables. -/
structure State (W : ℕ) (α β : Type) where
  pc : PC W α β
  queue : Fin W → List (Msg α β)
  worker : Fin W → WState α β
  calls : List (Call W α β)
  quits : Fin W → ℕ
  closes : ℕ

/-- parallel.py:43-68 the pool after construction: all workers have entered `wait`. -/
def init : State W α β :=
  { pc := .ready, queue := fun _ => [], worker := fun _ => .waiting, calls := [], quits := fun _ => 0, closes := 0 }

/-- `enumerate(tasks)` (parallel.py:123). -/
def enumerate (tasks : List α) : List (ℕ × α) := tasks.zipIdx.map fun p => (p.2, p.1)

/-- Who moves: the program that uses the pool, the master (an `Iprobe` that returns False is named separately), a worker. -/
inductive Act (W : ℕ)
  | user
  | master
  | pollFalse
  | worker (w : Fin W)

/-- One step. -/
inductive Step (buffered : Bool) : State W α β → Act W → State W α β → Prop
  /-- parallel.py:122-125: `map(func, tasks)` is called. -/
  | callMap (s : State W α β) (func : α → Option β) (tasks : List α) : s.pc = .ready →
      Step buffered s .user { s with pc := .head ⟨func, tasks, Finset.univ, enumerate tasks, List.replicate tasks.length none,
        tasks.length, []⟩ }
  /-- parallel.py:127, 153: nothing is pending, `map` returns. -/
  | finish (s : State W α β) (m : MapVars W α β) : s.pc = .head m → m.pending = 0 →
      Step buffered s .master { s with pc := .ready, calls := s.calls ++ [⟨m.func, m.tasks, m.resultlist, m.log⟩] }
  /-- parallel.py:128-132: an idle worker (any, `set.pop`) gets the last task of the list. -/
  | send (s : State W α β) (m : MapVars W α β) (w : Fin W) (rest : List (ℕ × α)) (tag : ℕ) (arg : α) :
      s.pc = .head m → m.pending ≠ 0 → w ∈ m.workerset → m.tasklist = rest ++ [(tag, arg)] →
      Step buffered s .master { s with
        pc := .sent { m with workerset := m.workerset.erase w, tasklist := rest, log := m.log ++ [(tag, w)] } w
        queue := Function.update s.queue w (s.queue w ++ [.task tag m.func arg]) }
  /-- parallel.py:128: no idle worker or no task left. -/
  | noSend (s : State W α β) (m : MapVars W α β) : s.pc = .head m → m.pending ≠ 0 → (m.workerset = ∅ ∨ m.tasklist = []) →
      Step buffered s .master { s with pc := .probe m }
  /-- parallel.py:132: `send` returns. -/
  | sendDone (s : State W α β) (m : MapVars W α β) (w : Fin W) : s.pc = .sent m w → (buffered = true ∨ s.queue w = []) →
      Step buffered s .master { s with pc := .probe m }
  /-- parallel.py:134-137: `Iprobe` returns False. -/
  | probeFalse (s : State W α β) (m : MapVars W α β) : s.pc = .probe m → m.tasklist ≠ [] →
      Step buffered s .pollFalse { s with pc := .head m }
  /-- parallel.py:135, 139: `Iprobe` returns True or `Probe` returns. -/
  | probeTrue (s : State W α β) (m : MapVars W α β) (w : Fin W) (tag : ℕ) (r : β) : s.pc = .probe m →
      s.worker w = .sending tag r → Step buffered s .master { s with pc := .recv m }
  /-- parallel.py:141-151: the result of any worker is received; its `ssend` returns.  A tag that is no index of the list
  would be an IndexError (no step). -/
  | recv (s : State W α β) (m : MapVars W α β) (w : Fin W) (tag : ℕ) (r : β) : s.pc = .recv m →
      s.worker w = .sending tag r → tag < m.resultlist.length →
      Step buffered s .master { s with
        pc := .head { m with workerset := insert w m.workerset, resultlist := m.resultlist.set tag (some r)
                             pending := m.pending - 1 }
        worker := Function.update s.worker w .waiting }
  /-- parallel.py:158-161: `close()` is called, explicitly, by `with` or at exit; the workers come in any order. -/
  | callClose (s : State W α β) (order : List (Fin W)) : (s.pc = .ready ∨ s.pc = .closed) → order.Nodup → (∀ w, w ∈ order) →
      Step buffered s .user { s with pc := .closing order, closes := s.closes + 1 }
  /-- parallel.py:162. -/
  | closeSend (s : State W α β) (w : Fin W) (rest : List (Fin W)) : s.pc = .closing (w :: rest) →
      Step buffered s .master { s with pc := .closeSent rest w, queue := Function.update s.queue w (s.queue w ++ [.quit])
                                       quits := Function.update s.quits w (s.quits w + 1) }
  /-- parallel.py:162: `send` returns. -/
  | closeSendDone (s : State W α β) (w : Fin W) (rest : List (Fin W)) : s.pc = .closeSent rest w →
      (buffered = true ∨ s.queue w = []) → Step buffered s .master { s with pc := .closing rest }
  /-- `close` returns. -/
  | closeDone (s : State W α β) : s.pc = .closing [] → Step buffered s .master { s with pc := .closed }
  /-- parallel.py:81, 87: a worker receives a task. -/
  | take (s : State W α β) (w : Fin W) (tag : ℕ) (func : α → Option β) (arg : α) (q : List (Msg α β)) : s.worker w = .waiting →
      s.queue w = .task tag func arg :: q →
      Step buffered s (.worker w) { s with queue := Function.update s.queue w q
                                           worker := Function.update s.worker w (.computing tag func arg) }
  /-- parallel.py:81-85: a worker receives the quit message. -/
  | quit (s : State W α β) (w : Fin W) (q : List (Msg α β)) : s.worker w = .waiting → s.queue w = .quit :: q →
      Step buffered s (.worker w) { s with queue := Function.update s.queue w q, worker := Function.update s.worker w .stopped }
  /-- parallel.py:88-90: the result is computed and offered with the tag of the task. -/
  | compute (s : State W α β) (w : Fin W) (tag : ℕ) (func : α → Option β) (arg : α) (r : β) :
      s.worker w = .computing tag func arg → func arg = some r →
      Step buffered s (.worker w) { s with worker := Function.update s.worker w (.sending tag r) }
  /-- parallel.py:88: the function raises, the worker process ends with a traceback. -/
  | crash (s : State W α β) (w : Fin W) (tag : ℕ) (func : α → Option β) (arg : α) :
      s.worker w = .computing tag func arg → func arg = none →
      Step buffered s (.worker w) { s with worker := Function.update s.worker w .crashed }

/-- States that can occur. -/
inductive Reachable (buffered : Bool) : State W α β → Prop
  | init : Reachable buffered init
  | step (s t : State W α β) (a : Act W) : Reachable buffered s → Step buffered s a t → Reachable buffered t

end Poco.Pool
