import Verif.Model.Py
/-
Model of the pipe-based parallel domain, `skdecide/domains.py` lines 364-617.

Simplifications: every instruction that touches shared data (a pipe, the list of results, the array of active flags) is one atomic step; pipes are
first-in first-out queues without loss; a domain is a function from its state and a job to its new state and a result or an exception;
pickling is the identity, and whether a job can be pickled is a parameter; the `ipc` notification socket is only a flag; starting and closing the processes
and the `spin` in `_launch_processes` are left out.
-/
namespace Verif.Par

/-- `wake_up_domain(None)` (419-425) by one thread: the first flag that is not set, or `none` when the loop keeps spinning. -/
def firstFree : List Bool → Option Nat
  | [] => none
  | v :: vs => if v then (firstFree vs).map (· + 1) else some 0

/-- `wake_up_domain` (419-428); the inner `none` is the endless loop while all workers are active. -/
def wakeUp (flags : List Bool) (i : Option Nat) : Except PyErr (Option (Nat × List Bool)) :=
  match i with
  | none => .ok ((firstFree flags).map (fun j => (j, flags.set j true)))
  | some i => if i < flags.length then .ok (some (i, flags.set i true)) else .error .indexError

/-- Where the server loop of a worker is (531-554). -/
inductive Phase (J R : Type) where
  | waiting
  | received (job : J)
  | cleared (job : J)
  | computed (r : R)
  | stored
  | failed
  deriving DecidableEq

/-- Where `get_result` for this worker is (592-597). -/
inductive Reader (R : Type) where
  | idle
  | received
  | took (r : Option R)
  | cleared (r : Option R)
  deriving DecidableEq

/-- Everything that belongs to one worker.  `launched` and `returned` only record what happened: the jobs sent and the values returned by `get_result`. -/
structure Worker (D J R : Type) where
  active : Bool
  pending : Option J
  inbox : List J
  outbox : List Bool
  slot : Option R
  phase : Phase J R
  reader : Reader R
  dom : D
  launched : List J
  returned : List (Option R)

/-- A worker after `_launch_processes`. -/
def Worker.fresh (d : D) : Worker D J R :=
  { active := false, pending := none, inbox := [], outbox := [], slot := none, phase := .waiting, reader := .idle, dom := d, launched := [], returned := [] }

/-- What the worker computes and which jobs go through the pipe. -/
structure Sys (D J R : Type) where
  exec : D → J → D × Option R
  sendable : J → Bool
  ipc : Bool

/-- One atomic step of the server process, of `get_result`, or of the second half of `launch`. -/
inductive Step (p : Sys D J R) : Worker D J R → Worker D J R → Prop
  /-- `self._waiting_jobs[mi].send((function, args))` (582) -/
  | send {w job} : w.pending = some job → p.sendable job = true →
      Step p w { w with pending := none, inbox := w.inbox ++ [job], launched := w.launched ++ [job] }
  /-- `send` raises, the exception is logged and `launch` returns `None` (584-588) -/
  | sendFails {w job} : w.pending = some job → p.sendable job = false → Step p w { w with pending := none }
  /-- `job = conn.recv()` (532) -/
  | recv {w job rest} : w.phase = .waiting → w.inbox = job :: rest → Step p w { w with phase := .received job, inbox := rest }
  /-- `job_results[i] = None` (533) -/
  | clear {w job} : w.phase = .received job → Step p w { w with phase := .cleared job, slot := none }
  /-- the call succeeds (541-544) -/
  | compute {w job d' r} : w.phase = .cleared job → p.exec w.dom job = (d', some r) → Step p w { w with phase := .computed r, dom := d' }
  /-- the call raises (549-550) -/
  | raise {w job d'} : w.phase = .cleared job → p.exec w.dom job = (d', none) → Step p w { w with phase := .failed, dom := d' }
  /-- `job_results[i] = r` (545) -/
  | store {w r} : w.phase = .computed r → Step p w { w with phase := .stored, slot := some r }
  /-- `conn.send('0')` (548) -/
  | reply {w} : w.phase = .stored → Step p w { w with phase := .waiting, outbox := w.outbox ++ [true] }
  /-- `conn.send(str(e))` (554) -/
  | replyError {w} : w.phase = .failed → p.ipc = false → Step p w { w with phase := .waiting, outbox := w.outbox ++ [false] }
  /-- with a notification socket the exception is only sent there (551-552) -/
  | notifyError {w} : w.phase = .failed → p.ipc = true → Step p w { w with phase := .waiting }
  /-- `self._waiting_jobs[i].recv()` (592); the content of the message is ignored -/
  | getRecv {w b rest} : w.reader = .idle → w.outbox = b :: rest → Step p w { w with reader := .received, outbox := rest }
  /-- `r = self._job_results[i]` (593) -/
  | getRead {w} : w.reader = .received → Step p w { w with reader := .took w.slot }
  /-- `self._job_results[i] = None` (594) -/
  | getClear {w r} : w.reader = .took r → Step p w { w with reader := .cleared r, slot := none }
  /-- `self._active_domains[i] = False; return r` (595-596) -/
  | getDone {w r} : w.reader = .cleared r → Step p w { w with reader := .idle, active := false, returned := w.returned ++ [r] }

/-- The first half of `launch` on this worker: the flag is set and the job is about to be sent (581). -/
def Worker.wake (w : Worker D J R) (job : J) : Worker D J R := { w with active := true, pending := some job }

/-- One step of the whole system: a step of some worker, or a launch.  `launch(None, …)` goes to the worker chosen by `wake_up_domain`.
`launch(i, …)` goes to the worker asked for; `polite` says that the caller only asks for workers that are not active. -/
inductive SysStep (p : Sys D J R) (polite : Bool) : List (Worker D J R) → List (Worker D J R) → Prop
  | inner {s i w w'} : s[i]? = some w → Step p w w' → SysStep p polite s (s.set i w')
  | launchAny {s i flags w job} : wakeUp (s.map (·.active)) none = .ok (some (i, flags)) → s[i]? = some w → SysStep p polite s (s.set i (w.wake job))
  | launchOn {s i flags w job} : wakeUp (s.map (·.active)) (some i) = .ok (some (i, flags)) → s[i]? = some w → w.pending = none →
      (polite = true → w.active = false) → SysStep p polite s (s.set i (w.wake job))

/-- What can happen from `s` on. -/
inductive Reach (p : Sys D J R) (polite : Bool) (s : List (Worker D J R)) : List (Worker D J R) → Prop
  | refl : Reach p polite s s
  | tail {s' s''} : Reach p polite s s' → SysStep p polite s' s'' → Reach p polite s s''

/-- One thread inside the loop of `wake_up_domain(None)`: it has read flag `j` as not set (422-423) or it has returned. -/
inductive Thread where
  | scanning
  | saw (j : Nat)
  | got (j : Nat)
  deriving DecidableEq

/-- Two or more threads in `wake_up_domain(None)`: reading a flag and setting it are separate steps. -/
inductive RaceStep : List Bool × List Thread → List Bool × List Thread → Prop
  | see {flags ts k j} : ts[k]? = some .scanning → flags[j]? = some false → RaceStep (flags, ts) (flags, ts.set k (.saw j))
  | take {flags ts k j} : ts[k]? = some (.saw j) → RaceStep (flags, ts) (flags.set j true, ts.set k (.got j))

inductive RaceReach (s : List Bool × List Thread) : List Bool × List Thread → Prop
  | refl : RaceReach s s
  | tail {s' s''} : RaceReach s s' → RaceStep s' s'' → RaceReach s s''

end Verif.Par
