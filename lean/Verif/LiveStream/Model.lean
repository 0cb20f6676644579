import Verif.Streaming.Dfg
/-
Model of the live event stream: /repo/pm4py/streaming/stream/live_event_stream.py (append, _deliver, start, stop), with the threads of the
producers, the delivery thread, the threads calling `stop` and the workers of the thread pool as a transition system.  The granularity is that of
the critical sections: everything between `acquire` and `release` (or `wait`) is one step, because the stream's lock is held; the test of the state
in line 53 is outside the lock, but the state never becomes INACTIVE again.  `live_trace_stream.py` is the same code.
Not modelled: `register`/`deregister` while events are delivered (the set of observers is fixed), a second call of `start`, observers whose
`receive` uses the stream itself, spurious wake-ups, redis dictionaries.
-/
namespace Verif
namespace LiveStream

/-- `StreamState` (live_event_stream.py:24-27) -/
inductive Phase where
  | inactive
  | active
  | finished
  deriving DecidableEq, Repr

/-- the delivery thread (live_event_stream.py:52-65): not started, about to acquire the lock (at the beginning of an iteration, or woken in
`wait`; both continue with the test of the queue), waiting in line 58, returned in line 61, ended by an exception of `submit` in line 64 (with the
lock held) -/
inductive Mail where
  | notStarted
  | ready
  | waiting
  | done
  | crashed
  deriving DecidableEq, Repr

/-- a thread calling `stop` (live_event_stream.py:74-82): about to acquire the lock (or woken in `wait`), waiting in line 77, in line 78 (holding
the lock until the pool has finished), returned -/
inductive Stop where
  | ready
  | waiting
  | shutting
  | returned
  deriving DecidableEq, Repr

/-- who waits for the condition -/
inductive Who where
  | mail
  | stop (i : Nat)
  deriving DecidableEq, Repr

variable {ω ε : Type}

/-- the state of the stream, of its threads and of the thread pool -/
structure State (ω ε : Type) where
  dq : List ε
  phase : Phase
  mail : Mail
  stops : List Stop
  /-- the waiters of the condition, longest waiting first (`threading.Condition` keeps them in a deque) -/
  waiters : List Who
  /-- the pool's queue of submitted calls: observer and event -/
  queue : List (ω × ε)
  /-- the calls taken by a worker and not finished -/
  running : List (ω × ε)
  /-- `shutdown` has been called -/
  closed : Bool
  /-- what the observers have received, in order (`StreamingAlgorithm.receive` holds the observer's lock: interface.py:48-55) -/
  received : List (ω × ε)
  /-- the events put into the queue by `append` so far, in order (not in the program: for the statements) -/
  accepted : List ε

/-- `__init__` (live_event_stream.py:36-43) -/
def init : State ω ε := ⟨[], .inactive, .notStarted, [], [], [], [], false, [], []⟩

/-- the steps a schedule consists of -/
inductive Act (ε : Type) where
  | append (e : ε)
  | start
  | deliver
  | stopCall
  | stopRun (i : Nat)
  | take
  | finish (i : Nat)
  | stopEnd (i : Nat)

/-- nobody holds the stream's lock between two steps, except a `stop` waiting for the pool, or a delivery thread that died in line 64 -/
def lockFree (s : State ω ε) : Bool := s.mail != .crashed && s.stops.all fun t => t != .shutting

/-- `Condition.notify`: the longest waiting thread is woken -/
def notify (s : State ω ε) : State ω ε :=
  match s.waiters with
  | [] => s
  | .mail :: ws => { s with waiters := ws, mail := .ready }
  | .stop i :: ws => { s with waiters := ws, stops := s.stops.set i .ready }

/-- `append` (live_event_stream.py:45-50) -/
def append (s : State ω ε) (e : ε) : Option (State ω ε) :=
  if lockFree s then
    if s.phase ≠ .finished then some (notify { s with dq := s.dq ++ [e], accepted := s.accepted ++ [e] }) else some s
  else none

/-- `start` (live_event_stream.py:67-72); only the first call is modelled -/
def start (s : State ω ε) : Option (State ω ε) :=
  if lockFree s && s.mail == .notStarted then some { s with phase := .active, mail := .ready } else none

/-- one critical section of `_deliver` (live_event_stream.py:53-65): with an empty queue lines 56-61, otherwise lines 62-65; `submit` raises if the
pool has been shut down -/
def deliver (obs : List ω) (s : State ω ε) : Option (State ω ε) :=
  if lockFree s && s.mail == .ready then
    match s.dq with
    | [] =>
      let s1 := notify s
      if s1.phase ≠ .finished then some { s1 with mail := .waiting, waiters := s1.waiters ++ [.mail] } else some { s1 with mail := .done }
    | e :: rest =>
      if s.closed && !obs.isEmpty then some { s with dq := rest, mail := .crashed }
      else some { s with dq := rest, queue := s.queue ++ obs.map fun o => (o, e) }
  else none

/-- somebody calls `stop` (live_event_stream.py:74) -/
def stopCall (s : State ω ε) : Option (State ω ε) := some { s with stops := s.stops ++ [.ready] }

/-- `stop` from the acquisition of the lock, or from being woken, to `wait` or `shutdown` (live_event_stream.py:75-78) -/
def stopRun (s : State ω ε) (i : Nat) : Option (State ω ε) :=
  if lockFree s && s.stops[i]? == some .ready then
    if s.dq.length > 0 then some { s with stops := s.stops.set i .waiting, waiters := s.waiters ++ [.stop i] }
    else some { s with stops := s.stops.set i .shutting, closed := true }
  else none

/-- a worker takes the oldest submitted call; there are `n` workers (live_event_stream.py:43) -/
def take (n : Nat) (s : State ω ε) : Option (State ω ε) :=
  match s.queue with
  | [] => none
  | t :: rest => if s.running.length < n then some { s with queue := rest, running := s.running ++ [t] } else none

/-- a worker finishes its call of `receive` -/
def finish (s : State ω ε) (i : Nat) : Option (State ω ε) :=
  match s.running[i]? with
  | none => none
  | some t => some { s with running := s.running.eraseIdx i, received := s.received ++ [t] }

/-- the end of `stop` (live_event_stream.py:78-82): `shutdown` returns when the pool has nothing left to do -/
def stopEnd (s : State ω ε) (i : Nat) : Option (State ω ε) :=
  if s.stops[i]? == some .shutting && s.queue.isEmpty && s.running.isEmpty then
    let s1 := { s with stops := s.stops.set i .returned }
    if s.phase = .active then some (notify { s1 with phase := .finished }) else some s1
  else none

/-- one step of a schedule, with `n` workers and the observers `obs`; `none` if the step is not possible -/
def step (n : Nat) (obs : List ω) (s : State ω ε) : Act ε → Option (State ω ε)
  | .append e => append s e
  | .start => start s
  | .deliver => deliver obs s
  | .stopCall => stopCall s
  | .stopRun i => stopRun s i
  | .take => take n s
  | .finish i => finish s i
  | .stopEnd i => stopEnd s i

/-- a schedule -/
def exec (n : Nat) (obs : List ω) (s : State ω ε) : List (Act ε) → Option (State ω ε)
  | [] => some s
  | a :: as => (step n obs s a).bind fun s' => exec n obs s' as

end LiveStream
end Verif
