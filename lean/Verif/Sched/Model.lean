import Verif.Prelude
/-
Model of the scheduler of the Python server: continuous batching with a token budget, finish detection, streaming,
aborts (C52-C55). Source: pymllm/orchestrator/scheduler_process.py (below "L…").

Simplifications (all definitions below):
* A prompt is given by its length; tokens and request ids are numbers. Timing statistics and logging are left out, and so
  is `req_pool_idx`, which the model runner ignores (model_runner_process.py L246-250).
* The model runner is an oracle: for every request of a batch it returns one token and, for a prefill, the length of the
  cached prefix (model_runner_process.py L425-460). Exceptions of the model runner, which end the event loop, are not modelled.
* Requests and aborts arrive between two iterations of the event loop (`recv_requests`, L503-601, is the only place where
  they are read, at the start of an iteration).
* `St.subs`, `St.gen`, `St.sent`, `St.gone` are ghosts: the history of submitted requests, of sampled tokens, of messages
  to the detokenizer and of aborts of requests that had been submitted. They do not influence the rest.
-/
namespace Verif.Sched

/-- `TokenizedGenerateReqInput`: the fields the scheduler looks at. -/
structure Raw where
  rid : Nat
  inp : Nat
  maxNew : Option Int
  stop : List Int
  stream : Bool
  deriving DecidableEq, Repr

/-- L379-387 and `_eos_token_ids`, `_default_max_new_tokens`. -/
structure Cfg where
  maxRun : Nat
  maxPrefill : Nat
  maxTotal : Nat
  eos : List Int
  defNew : Int
  deriving DecidableEq, Repr

/-- `finished_reason`. -/
inductive Reason where
  | eos | length | abort
  deriving DecidableEq, Repr

/-- `Req`, L91-187. `pre` is `prefix_len`, `off` is `read_offset`. -/
structure Req where
  rid : Nat
  inp : Nat
  maxNew : Int
  stop : List Int
  stream : Bool
  seq : Nat
  pre : Nat
  out : List Int
  reason : Option Reason
  off : Nat
  deriving DecidableEq, Repr

/-- A message to the detokenizer, L896-909 and L982-996. -/
structure Msg where
  rid : Nat
  reason : Option Reason
  decodeIds : List Int
  readOffset : Nat
  outputIds : List Int
  deriving DecidableEq, Repr

/-- What the model runner returns for a request: the sampled token and `prefix_len`. -/
abbrev Oracle := Nat → Int × Nat

structure St where
  waiting : List Raw
  pending : List Req
  running : List Req
  used : Int
  subs : List Raw
  gen : List (Nat × Int)
  sent : List Msg
  gone : List Nat

def St.init : St := ⟨[], [], [], 0, [], [], [], []⟩

/-- L639-643: the end-of-sequence tokens are added to the stop tokens. -/
def mergeStop (stop eos : List Int) : List Int := eos.foldl (fun s e => if e ∈ s then s else s ++ [e]) stop

/-- `process_input_requests`, L631-656. -/
def Raw.toReq (c : Cfg) (r : Raw) : Req :=
  ⟨r.rid, r.inp, r.maxNew.getD c.defNew, mergeStop r.stop c.eos, r.stream, r.inp, 0, [], none, 0⟩

/-- `check_finished`, L189-213. -/
def Req.check (r : Req) : Req :=
  if r.reason.isSome then r
  else if r.out.getLast?.any (· ∈ r.stop) then { r with reason := some .eos }
  else if r.maxNew ≤ r.out.length then { r with reason := some .length }
  else r

/-- `_free_req_resources`, L1005-1022. -/
def freed (u : Int) (r : Req) : Int := max 0 (u - (r.seq - r.pre))

/-- L681-689: finished (here: aborted) requests leave the running batch. -/
def purge : List Req → Int → List Req × Int
  | [], u => ([], u)
  | r :: rs, u => if r.reason.isSome then purge rs (freed u r) else (r :: (purge rs u).1, (purge rs u).2)

/-- L692-727: the requests admitted to the prefill batch, the rest, and the budget in use. `n`: running and admitted requests,
`b`: what is left of `max_prefill_tokens`. -/
def admit (c : Cfg) : Nat → Int → Nat → List Req → List Req × List Req × Int
  | _, u, _, [] => ([], [], u)
  | n, u, b, r :: rs =>
    if n < c.maxRun ∧ u + r.inp ≤ c.maxTotal ∧ r.inp ≤ b then
      let x := admit c (n + 1) (u + r.inp) (b - r.inp) rs
      (r :: x.1, x.2.1, x.2.2)
    else
      let x := admit c n u b rs
      (x.1, r :: x.2.1, x.2.2)

/-- L804-825: the correction of the budget for the cached prefix (prefill only). -/
def credit (ext : Bool) (pre : Nat) (r : Req) (u : Int) : Req × Int :=
  if ext = true ∧ r.pre < pre then ({ r with pre := pre }, max 0 (u - (pre - r.pre : Nat))) else (r, u)

/-- L827-838: the new token. -/
def push (tok : Int) (r : Req) : Req := { r with out := r.out ++ [tok], seq := r.seq + 1 }.check

/-- L778-838, for all requests of the batch. -/
def absorb (ext : Bool) (o : Oracle) : List Req → Int → List Req × Int
  | [], u => ([], u)
  | r :: rs, u =>
    let x := credit ext (o r.rid).2 r u
    let y := absorb ext o rs (x.2 + 1)
    (push (o r.rid).1 x.1 :: y.1, y.2)

/-- `_collect_finished_output`, L979-996. -/
def Req.final (r : Req) : Msg := ⟨r.rid, r.reason, r.out.drop r.off, r.off, r.out⟩

/-- L847-857, L873-881: finished requests are reported and release their budget. Returns those that go on, the reports and
the budget. -/
def route : List Req → Int → List Req × List Msg × Int
  | [], u => ([], [], u)
  | r :: rs, u =>
    if r.reason.isSome then
      let x := route rs (freed u r)
      (x.1, r.final :: x.2.1, x.2.2)
    else
      let x := route rs u
      (r :: x.1, x.2.1, x.2.2)

/-- Whether there is something to stream, L898-900. -/
def Req.due (r : Req) : Prop := r.reason ≠ some .abort ∧ r.stream = true ∧ r.off < r.out.length

instance (r : Req) : Decidable r.due := by unfold Req.due; infer_instance

/-- L901-917: the message and the new read offset. -/
def Req.chunk (r : Req) : Msg := ⟨r.rid, none, r.out.drop r.off, r.off, r.out⟩

/-- `stream_output`, L896-922, the loop over the running requests. -/
def emit : List Req → List Msg × List Req
  | [] => ([], [])
  | r :: rs => if r.due then (r.chunk :: (emit rs).1, { r with off := r.out.length } :: (emit rs).2) else ((emit rs).1, r :: (emit rs).2)

/-- One iteration of the event loop after the messages were received, L486-501. -/
def St.iter (c : Cfg) (s : St) (o : Oracle) : St :=
  let p := purge s.running s.used
  let a := admit c p.1.length p.2 c.maxPrefill (s.pending ++ s.waiting.map (Raw.toReq c))
  if a.1 ≠ [] then
    let b := absorb true o a.1 a.2.2
    let x := route b.1 b.2
    let e := emit (p.1 ++ x.1)
    { s with waiting := [], pending := a.2.1, running := e.2, used := x.2.2, sent := s.sent ++ e.1 ++ x.2.1
             gen := s.gen ++ a.1.map (fun r => (r.rid, (o r.rid).1)) }
  else if p.1 ≠ [] then
    let b := absorb false o p.1 a.2.2
    let x := route b.1 b.2
    let e := emit x.1
    { s with waiting := [], pending := a.2.1, running := e.2, used := x.2.2, sent := s.sent ++ e.1 ++ x.2.1
             gen := s.gen ++ p.1.map (fun r => (r.rid, (o r.rid).1)) }
  else { s with waiting := [], pending := a.2.1, running := [], used := a.2.2 }

/-- A request arrives, L546. -/
def St.recv (s : St) (r : Raw) : St := { s with waiting := s.waiting ++ [r], subs := s.subs ++ [r] }

/-- `for req in self._running_batch: if req.rid == rid: req.abort(); break`, L1029-1032. -/
def abortFirst (rid : Nat) : List Req → List Req
  | [] => []
  | r :: rs => if r.rid = rid then { r with reason := some .abort } :: rs else r :: abortFirst rid rs

/-- An abort arrives, L536-544 and `_abort_request`, L1024-1032. -/
def St.abort (s : St) (rid : Nat) : St :=
  { s with waiting := s.waiting.filter (·.rid ≠ rid), pending := s.pending.filter (·.rid ≠ rid), running := abortFirst rid s.running
           gone := if rid ∈ s.subs.map Raw.rid then rid :: s.gone else s.gone }

/-- What happens to the scheduler: a request or an abort arrives, or the loop makes an iteration. -/
inductive Ev where
  | recv (r : Raw)
  | abort (rid : Nat)
  | iter (o : Oracle)

def St.step (c : Cfg) (s : St) : Ev → St
  | .recv r => s.recv r
  | .abort rid => s.abort rid
  | .iter o => s.iter c o

/-- Request ids are new (launch.py L541-560: UUIDs), and a cached prefix is a part of the prompt. -/
def Ev.ok (s : St) : Ev → Prop
  | .recv r => ∀ q ∈ s.subs, q.rid ≠ r.rid
  | .abort _ => True
  | .iter o => ∀ q ∈ s.subs, (o q.rid).2 ≤ q.inp

/-- All histories of a scheduler; the events, most recent first. -/
inductive Reach (c : Cfg) : List Ev → St → Prop where
  | init : Reach c [] .init
  | step {evs s} (e : Ev) : Reach c evs s → e.ok s → Reach c (e :: evs) (s.step c e)

end Verif.Sched
