import Verif.Sched.Props
/-
Model of the way of an answer from the scheduler to the client, and of requests and aborts to the scheduler (C56-C58):
* the incremental text of the detokenizer: pymllm/orchestrator/detokenizer_process.py ("D L…"),
* the hand-over of results to a waiting client: pymllm/orchestrator/request_response_process.py ("R L…") and
  pymllm/engine/launch.py ("E L…"),
* the queues between client and scheduler: "R L…", pymllm/orchestrator/tokenizer_process.py ("T L…") and
  pymllm/orchestrator/scheduler_process.py ("S L…").

Simplifications: text is a list of characters, `decode` of the tokenizer is an arbitrary function from tokens to text. ZMQ
sockets and queues deliver in order and lose nothing. The 30 minutes time-out (R L219-236) and the cancellation of the
client's coroutine are left out. Code between two `await`s (or `yield`s of an async generator) is atomic.
-/
namespace Verif.Deliver
open Verif.Sched

/-! ### Detokenizer -/

abbrev Text := List Char

/-- A result for the client, D L173-183: text so far, new text, whether this is the end. -/
structure Res where
  rid : Nat
  text : Text
  delta : Text
  fin : Bool
  deriving DecidableEq, Repr

/-- `_detokenize`, D L100-192, for the one request of a message; `prev` is `_rid_to_prev_text` (`[]` if there is no entry). -/
def detok1 (dec : List Int → Text) (prev : Nat → Text) (m : Msg) : Res × (Nat → Text) :=
  let text := dec m.outputIds
  let delta := text.drop (prev m.rid).length
  (⟨m.rid, text, delta, m.reason.isSome⟩, fun r => if r = m.rid then (if m.reason.isSome then [] else text) else prev r)

/-- `event_loop`, D L79-87. -/
def detok (dec : List Int → Text) : (Nat → Text) → List Msg → List Res
  | _, [] => []
  | prev, m :: ms => (detok1 dec prev m).1 :: detok dec (detok1 dec prev m).2 ms

/-! ### Hand-over to the client -/

/-- Where `_stream_results` (E L526-537) is suspended. -/
inductive Pc where
  | waiting
  | yielded
  | returned
  deriving DecidableEq, Repr

/-- `ReqState` (R L29-44), the position of the `for` loop of the client, and what it has yielded; `got` is a ghost: all results
received so far. -/
structure Hand (α : Type) where
  out : List α
  finished : Bool
  event : Bool
  pos : Nat
  pc : Pc
  yielded : List α
  got : List α

def Hand.init {α : Type} : Hand α := ⟨[], false, false, 0, .waiting, [], []⟩

/-- `_recv_loop`, R L203-212: a result arrives. -/
def Hand.recv {α : Type} (h : Hand α) (x : α) (fin : Bool) : Hand α :=
  { h with out := h.out ++ [x], finished := h.finished || fin, event := true, got := h.got ++ [x] }

/-- E L532-537, from the `for` loop up to the next suspension. -/
def Hand.advance {α : Type} (h : Hand α) : Hand α :=
  match h.out[h.pos]? with
  | some x => { h with pos := h.pos + 1, pc := .yielded, yielded := h.yielded ++ [x] }
  | none =>
    if h.finished then { h with out := [], pos := 0, pc := .returned }
    else { h with out := [], pos := 0, event := false, pc := .waiting }

inductive HEv (α : Type) where
  | recv (x : α) (fin : Bool)
  | wake
  | resume

/-- All interleavings of arriving results and of the client. Nothing arrives after the last result (C53). -/
inductive HReach {α : Type} : Hand α → Prop where
  | init : HReach .init
  | recv {h} (x : α) (fin : Bool) : HReach h → h.finished = false → HReach (h.recv x fin)
  | wake {h} : HReach h → h.pc = .waiting → h.event = true → HReach h.advance
  | resume {h} : HReach h → h.pc = .yielded → HReach h.advance

/-! ### Requests and aborts on their way to the scheduler -/

/-- A message to the tokenizer, and from there to the scheduler. -/
inductive Cmd where
  | req (r : Raw)
  | abort (rid : Nat)
  deriving DecidableEq, Repr

/-- The asyncio queue of the front end, and all messages sent on the socket to the tokenizer. -/
structure Front where
  queue : List Raw
  wire : List Cmd
  deriving DecidableEq, Repr

inductive FEv where
  | add (r : Raw)
  | send
  | abort (rid : Nat)
  deriving DecidableEq, Repr

/-- `add_request`, R L103-146; one turn of `_send_loop`, R L181-185; `abort_request`, R L152-160, which does not use the queue. -/
def Front.step (f : Front) : FEv → Front
  | .add r => { f with queue := f.queue ++ [r] }
  | .send => match f.queue with
    | [] => f
    | r :: rs => ⟨rs, f.wire ++ [.req r]⟩
  | .abort rid => { f with wire := f.wire ++ [.abort rid] }

def Front.run (f : Front) (evs : List FEv) : Front := evs.foldl Front.step f

/-- The tokenizer forwards requests through the shared queue, if there is one, and aborts always through the socket (T L128-160);
the scheduler reads the shared queue, or else the socket (S L519-522). The result: what the scheduler gets to see of a
sequence of messages. -/
def seen (shared : Bool) (wire : List Cmd) : List Cmd :=
  if shared then wire.filter (fun m => match m with | .req _ => true | .abort _ => false) else wire

/-- The scheduler reads a message, S L532-546. -/
def Cmd.ev : Cmd → Ev
  | .req r => .recv r
  | .abort rid => .abort rid

end Verif.Deliver
