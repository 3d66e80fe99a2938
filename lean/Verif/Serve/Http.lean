import Verif.Serve.Batch
import Verif.Parse.Props

/-!
# The OpenAI-compatible endpoints (model; C93-C95 and C97 are about it)

`pymllm/server/launch.py` ("H L…"): `/v1/completions` and `/v1/chat/completions`, from what `generate_async` yields to what
the client is sent. `pymllm/engine/launch.py` is "E L…".

Simplifications: ids, time stamps, model names, log probabilities and timings are left out; a string is a list of characters;
a client that goes away is left out.
-/

namespace Verif.Serve

open Parse (Text RCfg RSt TCfg TSt)

/-- What `generate_async` yields: a result of the detokenizer (`res`; detokenizer_process.py L163-172), or the dict of an aborted
or timed-out request, which has none of these keys (R L156, R L235). -/
inductive Item where
  | res (text delta : Text) (reason : Option String) (prompt completion : Nat)
  | err
  deriving DecidableEq

/-- `r.get("text", "")`. -/
def Item.text : Item → Text
  | .res t _ _ _ _ => t
  | .err => []

/-- `r.get("delta", "")`. -/
def Item.delta : Item → Text
  | .res _ d _ _ _ => d
  | .err => []

/-- `r.get("finished_reason", d)`. -/
def Item.reason (d : Option String) : Item → Option String
  | .res _ _ r _ _ => r
  | .err => d

/-- `r.get("prompt_tokens", p)`, `r.get("completion_tokens", c)`. -/
def Item.usage (d : Nat × Nat) : Item → Nat × Nat
  | .res _ _ _ p c => (p, c)
  | .err => d

/-- `_normalize_finish_reason` with `_FINISH_REASON_MAP` (H L415-427), for a reason that is not `None`. -/
def normReason : String → String
  | "eos" => "stop"
  | "stop" => "stop"
  | "length" => "length"
  | "abort" => "stop"
  | r => r

/-- An entry of `choices` in an answer of `/v1/completions`. -/
structure Choice where
  index : Nat
  text : Text
  finish : Option String
  deriving DecidableEq

/-- The choices of an answer (H L804-821), for what the iterator of the engine yielded. -/
def choices (rs : List Item) : List Choice :=
  rs.zipIdx.map fun x => ⟨x.2, x.1.text, (x.1.reason (some "stop")).map normReason⟩

/-- The usage of an answer (H L808-821). -/
def usage (rs : List Item) : Nat × Nat :=
  rs.foldl (fun u r => (u.1 + (r.usage (0, 0)).1, u.2 + (r.usage (0, 0)).2)) (0, 0)

/-- An event of a stream. -/
inductive Sse where
  | chunk (c : Choice)
  | usage (p c : Nat)
  | error
  | done
  deriving DecidableEq

/-- The body of the loop (H L750-774). -/
def sseOf (r : Item) : List Sse :=
  if r.delta = [] ∧ (r.reason none).map normReason = none then []
  else [.chunk ⟨0, r.delta, (r.reason none).map normReason⟩]

/-- The numbers at the end of the stream (H L744-745, L751-752). -/
def lastUsage (rs : List Item) : Nat × Nat := rs.foldl (fun u r => r.usage u) (0, 0)

/-- `_stream` of `/v1/completions` (H L742-796): `raised` if the engine's iterator ended with an exception. -/
def completionStream (incl : Bool) (rs : List Item) (raised : Bool) : List Sse :=
  rs.flatMap sseOf ++ (if raised then [.error] else []) ++
    (if incl then [.usage (lastUsage rs).1 (lastUsage rs).2] else []) ++ [.done]

/-! ### The order of a batch -/

/-- What an entry of `out_list` is for the server; `look` gives the contents of a result. -/
def outItem (look : Nat → Item) : Out → Item
  | .res r => look r.body
  | .aborted => .err
  | .timeout => .err

/-- The states among `ids` in the order in which they end. `asyncio.as_completed` (E L496-502) yields in this order if each waiter
runs before the next one's end. -/
def ended (pyStr : Py → String) (ids : List Nat) : Front → List Ev → List Nat
  | _, [] => []
  | f, e :: es =>
    ids.filter (fun i => ((f.step pyStr e).states i).finished && !(f.states i).finished) ++ ended pyStr ids (f.step pyStr e) es

/-- What the iterator of a batch call (not streamed) yields after the events `es`. -/
def yielded (pyStr : Py → String) (look : Nat → Item) (ids : List Nat) (f : Front) (es : List Ev) : List Item :=
  (ended pyStr ids f es).filterMap fun i => (((f.run pyStr es).states i).final).map (outItem look)

/-! ### Chat -/

/-- The parsers in use (H L898-899, L922-931, L1050, L1056). -/
structure ChatCfg where
  rc : Option RCfg
  tc : Option TCfg

/-- The `delta` of an event of a chat stream, or its end. -/
inductive Delta where
  | role
  | reasoning (t : Text)
  | tool (i : Parse.Item)
  | content (t : Text)
  | finish (r : String)
  deriving DecidableEq

/-- The variables of `_stream` (H L911-931). -/
structure ChatSt where
  r : RSt
  t : TSt
  first : Bool
  tools : Bool

def ChatSt.init (c : ChatCfg) : ChatSt where
  r := match c.rc with
    | some rc => .init rc
    | none => ⟨[], false, false, false⟩
  t := .init
  first := true
  tools := false

/-- Phase 1 (H L961-967): reasoning and content. -/
def phase1 (c : ChatCfg) (s : RSt) (d : Text) : RSt × Text × Text :=
  match c.rc with
  | some rc => if d ≠ [] then s.chunk rc d else (s, [], d)
  | none => (s, [], d)

/-- Phase 2 (H L970-974): content and calls. -/
def phase2 (c : ChatCfg) (s : TSt) (d : Text) : TSt × Text × List Parse.Item :=
  match c.tc with
  | some tc => if d ≠ [] then s.chunk tc d else (s, d, [])
  | none => (s, d, [])

/-- The end (H L997-1007): what is left of the calls, and the reason. -/
def chatEnd (c : ChatCfg) (t : TSt) (tools : Bool) (reason : String) : List Delta :=
  match c.tc with
  | some tc => (t.flush tc).map .tool ++
      [.finish (if tools || !(t.flush tc).isEmpty then "tool_calls" else normReason reason)]
  | none => [.finish (normReason reason)]

/-- `if finish_reason is not None` (H L997). -/
def chatFin (c : ChatCfg) (t : TSt) (tools : Bool) : Option String → List Delta
  | some r => chatEnd c t tools r
  | none => []

/-- The body of the loop (H L953-1007) for a chunk with text `d` and reason `fin`. -/
def ChatSt.chunk (c : ChatCfg) (s : ChatSt) (d : Text) (fin : Option String) : ChatSt × List Delta :=
  let p := phase1 c s.r d
  let q := phase2 c s.t p.2.2
  let tools := s.tools || !q.2.2.isEmpty
  (⟨p.1, q.1, false, tools⟩,
    (if s.first then [.role] else []) ++ (if p.2.1 ≠ [] then [.reasoning p.2.1] else []) ++ q.2.2.map .tool ++
    (if q.2.1 ≠ [] then [.content q.2.1] else []) ++
    chatFin c q.1 tools fin)

/-- The loop. (After the end `has_tool_calls` may be set by the flush; there is no chunk after it.) -/
def chatLoop (c : ChatCfg) : ChatSt → List (Text × Option String) → List Delta
  | _, [] => []
  | s, x :: xs => (s.chunk c x.1 x.2).2 ++ chatLoop c (s.chunk c x.1 x.2).1 xs

/-- The chat events for what the engine yields. -/
def chatStream (c : ChatCfg) (rs : List Item) : List Delta :=
  chatLoop c (.init c) (rs.map fun r => (r.delta, r.reason none))

/-- The message of a chat that is not streamed. -/
structure Message where
  reasoning : Option Text
  content : Text
  calls : List Parse.Item
  finish : Option String
  deriving DecidableEq

/-- H L1037-1066 for the last result; `ws` is the set of characters `str.strip` removes. An empty content is `None` there. -/
def chatMessage (c : ChatCfg) (ws : Char → Bool) (r : Item) : Message :=
  let p := match c.rc with
    | some rc => rc.whole ws r.text
    | none => (none, r.text)
  let fin := (r.reason (some "stop")).map normReason
  match c.tc with
  | some tc =>
    if Parse.find tc.bot p.2 ≠ none then
      let q := tc.whole p.2
      ⟨p.1, q.1, q.2, if q.2 = [] then fin else some "tool_calls"⟩
    else ⟨p.1, p.2, [], fin⟩
  | none => ⟨p.1, p.2, [], fin⟩

end Verif.Serve
