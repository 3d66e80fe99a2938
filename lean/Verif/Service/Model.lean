import Verif.Prelude
/-
The generation service (C30, C31). Sources: mllm/engine/service/Service.{hpp,cpp}.

Concurrency: one label per scheduling choice; a run is an arbitrary list of labels. A section that holds a mutex
is one step. Condition variables are modelled explicitly: a thread whose predicate is false falls asleep in the
same step, `notify_one` wakes one sleeping thread chosen by the scheduler, `notify_all` all of them, and a
woken thread must take the mutex again and re-evaluate its predicate. Spurious wake-ups are labels.

Not modelled: JSON parsing, the contents of the payloads, clocks. `gen r` is what the session of request `r`
streams before it returns or throws (`none`: no session is registered under the name in the request).
-/
namespace Verif.Service

variable {Resp : Type}

/-- `RequestItem`, Service.hpp L27-31. -/
structure Req where
  id : Nat
  payload : Nat
  deriving DecidableEq, Repr

/-- A worker in `workerLoop`, Service.cpp L117-153. -/
inductive WPc (Resp : Type) where
  /-- before reading `running_` -/
  | top
  /-- about to lock the request queue in `pop` -/
  | lock
  | asleep
  | woken
  /-- in `streamGenerate`, with the responses still to be pushed -/
  | gen (r : Req) (rest : List Resp)
  | exited
  deriving DecidableEq

/-- A client thread in `getResponse`. -/
inductive CPc where
  | idle
  | lock (id : Nat)
  | asleep (id : Nat)
  | woken (id : Nat)
  deriving DecidableEq, Repr

structure State (Resp : Type) where
  /-- `RequestPool::queue_`, `stop_` -/
  rq : List Req
  rstop : Bool
  running : Bool
  w : Nat → WPc Resp
  /-- `ResponsePool::queues_` (an absent queue is an empty one), `stop_` -/
  pq : Nat → List Resp
  pstop : Bool
  cl : Nat → CPc
  /-- progress of `Service::stop`, 0: not called, 4: returned -/
  stopPc : Nat
  /-- a null session was dereferenced -/
  crashed : Bool
  /-- accepted requests, in order -/
  sent : List Req
  /-- requests taken by workers, in order -/
  served : List (Nat × Req)
  /-- responses pushed for each id, in order -/
  pushed : Nat → List Resp
  /-- responses returned to clients for each id, in order -/
  got : Nat → List Resp

/-- Number of worker threads and of client threads, and what sessions generate. -/
structure Cfg (Resp : Type) where
  workers : Nat
  clients : Nat
  gen : Req → Option (List Resp)

/-- After `start`, Service.cpp L93-97. -/
def State.init : State Resp where
  rq := []
  rstop := false
  running := true
  w := fun _ => .top
  pq := fun _ => []
  pstop := false
  cl := fun _ => .idle
  stopPc := 0
  crashed := false
  sent := []
  served := []
  pushed := fun _ => []
  got := fun _ => []

inductive Label where
  /-- `sendRequest`; `notify_one` wakes worker `t` -/
  | send (r : Req) (t : Nat)
  /-- worker `i`; a push of a response wakes client `t` -/
  | work (i t : Nat)
  | spurW (i : Nat)
  /-- client `c` calls `getResponse(id)` -/
  | call (c id : Nat)
  | client (c : Nat)
  | spurC (c : Nat)
  | stop

def WPc.isAsleep : WPc Resp → Bool
  | .asleep => true
  | _ => false

def CPc.isAsleep : CPc → Bool
  | .asleep _ => true
  | _ => false

def CPc.wake : CPc → CPc
  | .asleep id => .woken id
  | p => p

/-- `notify_one` with the scheduler's choice `t`: `none` if the choice is not possible. -/
def notifyW (n : Nat) (w : Nat → WPc Resp) (t : Nat) : Option (Nat → WPc Resp) :=
  if t < n ∧ (w t).isAsleep then some (Function.update w t .woken)
  else if (List.range n).any (fun i => (w i).isAsleep) then none
  else some w

def notifyC (n : Nat) (cl : Nat → CPc) (t : Nat) : Option (Nat → CPc) :=
  if t < n ∧ (cl t).isAsleep then some (Function.update cl t (cl t).wake)
  else if (List.range n).any (fun c => (cl c).isAsleep) then none
  else some cl

/-- `RequestPool::push`, L16-22, from `sendRequest`, L164-178. -/
def send (cfg : Cfg Resp) (st : State Resp) (r : Req) (t : Nat) : State Resp :=
  match notifyW cfg.workers st.w t with
  | some w => { st with rq := st.rq ++ [r], w := w, sent := st.sent ++ [r] }
  | none => st

/-- `RequestPool::pop` with the lock held, L24-33, and the lookup of the session, L121-124. -/
def popReq (cfg : Cfg Resp) (st : State Resp) (i : Nat) : State Resp :=
  match st.rq with
  | [] =>
    if st.rstop then { st with w := Function.update st.w i .exited }
    else { st with w := Function.update st.w i .asleep }
  | r :: rest =>
    match cfg.gen r with
    | none => { st with rq := rest, served := st.served ++ [(i, r)], crashed := true }
    | some out =>
      { st with
        rq := rest
        served := st.served ++ [(i, r)]
        w := Function.update st.w i (.gen r out) }

/-- One step of worker `i`, L117-153; pushing a response is `ResponsePool::push`, L46-51. -/
def work (cfg : Cfg Resp) (st : State Resp) (i t : Nat) : State Resp :=
  match st.w i with
  | .top => { st with w := Function.update st.w i (if st.running then .lock else .exited) }
  | .lock => popReq cfg st i
  | .woken => popReq cfg st i
  | .gen r (x :: rest) =>
    match notifyC cfg.clients st.cl t with
    | some cl =>
      { st with
        w := Function.update st.w i (.gen r rest)
        pq := Function.update st.pq r.id (st.pq r.id ++ [x])
        pushed := Function.update st.pushed r.id (st.pushed r.id ++ [x])
        cl := cl }
    | none => st
  | .gen _ [] => { st with w := Function.update st.w i .top }
  | .asleep => st
  | .exited => st

/-- `ResponsePool::pop` with the lock held, L53-66. -/
def popResp (st : State Resp) (c id : Nat) : State Resp :=
  if st.pstop then { st with cl := Function.update st.cl c .idle }
  else match st.pq id with
    | [] => { st with cl := Function.update st.cl c (.asleep id) }
    | x :: rest =>
      { st with
        cl := Function.update st.cl c .idle
        pq := Function.update st.pq id rest
        got := Function.update st.got id (st.got id ++ [x]) }

def client (st : State Resp) (c : Nat) : State Resp :=
  match st.cl c with
  | .lock id => popResp st c id
  | .woken id => popResp st c id
  | _ => st

/-- `Service::stop`, L99-109: shut the request pool, clear `running_`, join the workers, shut the response
pool. -/
def stop (cfg : Cfg Resp) (st : State Resp) : State Resp :=
  match st.stopPc with
  | 0 => { st with rstop := true, w := fun i => if (st.w i).isAsleep then .woken else st.w i, stopPc := 1 }
  | 1 => { st with running := false, stopPc := 2 }
  | 2 =>
    if (List.range cfg.workers).all (fun i => match st.w i with | .exited => true | _ => false) then
      { st with stopPc := 3 }
    else st
  | 3 => { st with pstop := true, cl := fun c => (st.cl c).wake, stopPc := 4 }
  | _ => st

def step (cfg : Cfg Resp) (st : State Resp) (l : Label) : State Resp :=
  if st.crashed then st
  else match l with
    | .send r t => send cfg st r t
    | .work i t => if i < cfg.workers then work cfg st i t else st
    | .spurW i => if (st.w i).isAsleep then { st with w := Function.update st.w i .woken } else st
    | .call c id =>
      if c < cfg.clients ∧ st.cl c = .idle then { st with cl := Function.update st.cl c (.lock id) } else st
    | .client c => client st c
    | .spurC c => { st with cl := Function.update st.cl c (st.cl c).wake }
    | .stop => stop cfg st

def run (cfg : Cfg Resp) (ls : List Label) (st : State Resp) : State Resp := ls.foldl (step cfg) st

def Reachable (cfg : Cfg Resp) (st : State Resp) : Prop := ∃ ls, st = run cfg ls .init

end Verif.Service
