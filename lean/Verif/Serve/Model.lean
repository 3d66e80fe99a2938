import Verif.Prelude

/-!
# From the caller's arguments to the scheduler (model)

Models, function by function, the way of one call of `Engine.generate` / `generate_async` to the scheduler:

* `pymllm/engine/io_struct.py` ("I L…"): `GenerateReqInput` with `normalize_batch_and_arguments`, `__getitem__`, `_pick`,
  `to_request_dict`;
* `pymllm/engine/launch.py` ("E L…"): `_make_rids`, `_wait_for_final_result`;
* `pymllm/orchestrator/request_response_process.py` ("R L…"): `add_request`, `remove_state`, `abort_request`, `_recv_loop`,
  `_cleanup_stale_states`;
* `pymllm/orchestrator/tokenizer_process.py` ("T L…"): `event_loop`, `_tokenize`, `_collect_mm_inputs`,
  `_normalize_image_input`;
* `pymllm/orchestrator/scheduler_process.py` ("S L…"): how the sampling parameters are read.

Simplifications: Python values are those of `Py`; a dict is a function from keys to values; images, processor outputs and other
objects are opaque; `uuid4` never repeats. Code between two `await`s is atomic (`asyncio.Queue.put` on an unbounded queue does
not suspend, so all of `add_request` is one step).
-/

namespace Verif.Serve

/-- Python values, as far as they are told apart here; `obj` stands for any other object (images, arrays, …). -/
inductive Py where
  | none
  | bool (b : Bool)
  | int (i : Int)
  | num (q : ℚ)
  | str (s : String)
  | obj (n : Nat)
  | list (l : List Py)
  | dict (keys : List String) (vals : List Py)

namespace Py

/-- `value is None`. -/
def isNone : Py → Bool
  | .none => true
  | _ => false

/-- `bool(value)`. -/
def truthy : Py → Bool
  | .none => false
  | .bool b => b
  | .int i => i ≠ 0
  | .num q => q ≠ 0
  | .str s => s ≠ ""
  | .obj _ => true
  | .list l => !l.isEmpty
  | .dict ks _ => !ks.isEmpty

/-- `int(value)`; `none` is a `TypeError` or `ValueError`. -/
def toInt : Py → Option Int
  | .int i => some i
  | .bool b => some (if b then 1 else 0)
  | .num q => some (if 0 ≤ q then q.floor else q.ceil)
  | .str s => s.toInt?
  | _ => Option.none

/-- `d.get(key)` on a dict. -/
def get (d : Py) (k : String) : Option Py :=
  match d with
  | .dict ks vs => (ks.zip vs).lookup k
  | _ => Option.none

end Py

/-! ### The request -/

/-- The fields of `GenerateReqInput` (I L31-51) that the caller sets. -/
structure Req where
  rid : Py
  text : Py := .none
  inputIds : Py := .none
  sampling : Py := .none
  logprob : Py := .none
  logprobStart : Py := .none
  topLogprobs : Py := .none
  stream : Bool := false
  image : Py := .none
  video : Py := .none
  audio : Py := .none
  lora : Py := .none
  session : Py := .none
  extra : List (String × Py) := []

inductive Err where
  | value    -- ValueError
  | index    -- IndexError
  | type     -- TypeError
  deriving DecidableEq, Repr

/-- `normalize_batch_and_arguments` (I L53-83): the number of prompts, `none` for a single request (`is_single`). -/
def Req.size (r : Req) : Except Err (Option Nat) :=
  if r.text.isNone = r.inputIds.isNone then .error .value
  else if r.text.isNone = false then
    match r.text with
    | .str _ => .ok none
    | .list [] => .error .value
    | .list l => .ok (some l.length)
    | _ => .error .type
  else
    match r.inputIds with
    | .list [] => .error .value
    | .list (.int _ :: _) => .ok none
    | .list (.bool _ :: _) => .ok none
    | .list l => .ok (some l.length)
    | _ => .error .type

/-- `_pick` (I L107-111). -/
def pick (v : Py) (i : Nat) : Except Err Py :=
  match v with
  | .list l => match l[i]? with
    | some x => .ok x
    | none => .error .index
  | v => .ok v

/-- `__getitem__` (I L85-105) for `i < n`, `n` the batch size. -/
def Req.item (r : Req) (n i : Nat) : Except Err Req :=
  if n = 1 then .ok r
  else do
    let rid ← pick r.rid i
    let text ← pick r.text i
    let inputIds ← pick r.inputIds i
    let sampling ← pick r.sampling i
    let logprob ← pick r.logprob i
    let logprobStart ← pick r.logprobStart i
    let topLogprobs ← pick r.topLogprobs i
    let image ← pick r.image i
    let video ← pick r.video i
    let audio ← pick r.audio i
    let lora ← pick r.lora i
    let session ← pick r.session i
    pure { rid, text, inputIds, sampling, logprob, logprobStart, topLogprobs, stream := r.stream, image, video, audio,
           lora, session, extra := r.extra }

/-- A message to the tokenizer: a dict. -/
abbrev Msg := String → Option Py

/-- `if value is not None: payload[key] = value` (I L130-131). -/
def present (v : Py) : Option Py := if v.isNone then none else some v

/-- The fields of `to_request_dict` (I L115-128). -/
def Req.field (r : Req) : String → Option Py
  | "rid" => present r.rid
  | "text" => present r.text
  | "input_ids" => present r.inputIds
  | "sampling_params" => present r.sampling
  | "return_logprob" => present r.logprob
  | "logprob_start_len" => present r.logprobStart
  | "top_logprobs_num" => present r.topLogprobs
  | "stream" => some (.bool r.stream)
  | "image_data" => present r.image
  | "video_data" => present r.video
  | "audio_data" => present r.audio
  | "lora_path" => present r.lora
  | "session_params" => present r.session
  | _ => none

/-- `to_request_dict` (I L113-133), with `payload.update(self.extra_options)` at the end. -/
def Req.payload (r : Req) : Msg := fun k => (r.extra.lookup k).or (r.field k)

/-- `_make_rids` (E L540-561); `fresh` supplies the `uuid4` values. -/
def makeRids (rid text inputIds : Py) (fresh : Nat → String) : Except Err Py :=
  if rid.isNone = false then .ok rid
  else
    match text, inputIds with
    | .list l, _ => .ok (.list ((List.range l.length).map fun i => .str (fresh i)))
    | t, .list (.list x :: rest) =>
      if t.isNone then .ok (.list ((List.range (.list x :: rest : List Py).length).map fun i => .str (fresh i)))
      else match t with
        | .str s => .ok (.list ((List.range s.length).map fun i => .str (fresh i)))
        | _ => .error .type
    | _, _ => .ok (.str (fresh 0))

/-! ### The front end -/

/-- A result from the detokenizer: the request id it carries, whether it is the last one, and the rest. -/
structure Res where
  rid : Py
  fin : Bool
  body : Nat

/-- What a `ReqState` (R L29-44) ends up with: a result from the pipeline, or what `abort_request` (R L156) or the clean-up
(R L235) put there. -/
inductive Out where
  | res (r : Res)
  | aborted
  | timeout

/-- `ReqState`. -/
structure State where
  out : List Out
  finished : Bool

/-- `_rid_to_state` (R L61): a dict from strings to states; the states themselves are objects, named by their number. `queue` is
`_request_queue`, `nstates` the number of states made so far. -/
structure Front where
  table : String → Option Nat
  states : Nat → State
  nstates : Nat
  queue : List Msg

def Front.init : Front := ⟨fun _ => none, fun _ => ⟨[], false⟩, 0, []⟩

/-- `d[key] = value`. -/
def setKey (t : String → Option Nat) (k : String) (v : Option Nat) : String → Option Nat :=
  fun k' => if k' = k then v else t k'

/-- R L130-134, R L140-144: one state, one message. `str(sub.rid)` for what is not a string is `pyStr`. -/
def Front.register (f : Front) (key : String) (m : Msg) : Front :=
  { table := setKey f.table key (some f.nstates)
    states := fun i => if i = f.nstates then ⟨[], false⟩ else f.states i
    nstates := f.nstates + 1
    queue := f.queue ++ [m] }

/-- `sub.rid if isinstance(sub.rid, str) else str(sub.rid)` (R L140). -/
def keyOf (pyStr : Py → String) : Py → String
  | .str s => s
  | v => pyStr v

/-- The loop of the batch path (R L138-145), from index `i` on; the states made, and how it ended. -/
def addItems (pyStr : Py → String) (r : Req) (n : Nat) : List Nat → Front → Front × Except Err (List Nat)
  | [], f => (f, .ok [])
  | i :: is, f =>
    match r.item n i with
    | .error e => (f, .error e)
    | .ok sub =>
      let x := addItems pyStr r n is (f.register (keyOf pyStr sub.rid) sub.payload)
      (x.1, x.2.map (f.nstates :: ·))

/-- `request.rid if isinstance(request.rid, str) else request.rid[0]` (R L130); a list whose first element is not a string is
not usable as a key (`TypeError`). -/
def singleKey : Py → Except Err String
  | .str s => .ok s
  | .list (.str s :: _) => .ok s
  | .list [] => .error .index
  | _ => .error .type

/-- `add_request` (R L104-145) after `normalize_batch_and_arguments` (E L388, L453): the states the caller waits for. The bound on
the queue (`max_queued`, R L126-127) is left out: it raises before anything is changed. -/
def Front.add (pyStr : Py → String) (f : Front) (r : Req) : Front × Except Err (List Nat) :=
  match r.size with
  | .error e => (f, .error e)
  | .ok none =>
    match singleKey r.rid with
    | .error e => (f, .error e)
    | .ok k => (f.register k r.payload, .ok [f.nstates])
  | .ok (some n) => addItems pyStr r n (List.range n) f

/-- One turn of `_recv_loop` (R L207-215). A result whose id is a list is not hashable: `TypeError`; the loop ends and is
started again by the next `add_request` (R L98-101, L125), the result is lost, and so it is for an id that is not known. -/
def Front.recv (f : Front) (r : Res) : Front :=
  match r.rid with
  | .str s =>
    match f.table s with
    | some i => { f with states := fun j => if j = i then
                    ⟨(f.states i).out ++ [.res r], (f.states i).finished || r.fin⟩ else f.states j }
    | none => f
  | _ => f

/-- `remove_state` (R L147-149). -/
def Front.remove (f : Front) (rid : String) : Front := { f with table := setKey f.table rid none }

/-- R L153-157 and R L233-236: the state is taken out of the table and ends. -/
def Front.finish (f : Front) (rid : String) (o : Out) : Front :=
  match f.table rid with
  | some i =>
    let f' := f.remove rid
    if (f.states i).finished then f'
    else { f' with states := fun j => if j = i then ⟨(f.states i).out ++ [o], true⟩ else f.states j }
  | none => f

/-- What happens to the front end. -/
inductive Ev where
  /-- a call of `generate` or `generate_async` -/
  | add (r : Req)
  /-- a result arrives -/
  | recv (r : Res)
  /-- a client has got its final result (E L471, L513-514) -/
  | remove (rid : String)
  /-- a client is gone (E L467-469, L510-512), or `/abort_request` -/
  | abort (rid : String)
  /-- a state is older than 30 minutes (R L223-236); finished states are not touched -/
  | stale (rid : String)

def Front.step (pyStr : Py → String) (f : Front) : Ev → Front
  | .add r => (f.add pyStr r).1
  | .recv r => f.recv r
  | .remove rid => f.remove rid
  | .abort rid => f.finish rid .aborted
  | .stale rid => match f.table rid with
    | some i => if (f.states i).finished then f else f.finish rid .timeout
    | none => f

def Front.run (pyStr : Py → String) (f : Front) (evs : List Ev) : Front := evs.foldl (Front.step pyStr) f

/-- `_wait_for_final_result` (E L516-523): what it returns once the state is finished. -/
def State.final (s : State) : Option Out := if s.finished then s.out.getLast? else none

/-! ### The tokenizer -/

/-- What the tokenizer works with: the text tokenizer (with truncation), the multimodal processor if there is one (`none` inside
for an exception; otherwise the token ids, if any, and the rest), `Image.open` and `str`. -/
structure Env where
  enc : String → List Int
  proc : Option (List Py → String → Option (Option (List Int) × Nat))
  open_ : Py → Option Py
  pyStr : Py → String

/-- `TokenizedGenerateReqInput` (I L137-155). `image` is what goes under `image_inputs` or `image_data`. -/
structure Tok where
  rid : Py
  text : String
  ids : List Py
  imageInputs : Option Nat
  imageData : Py
  audio : Py
  video : Py
  sampling : Py
  stream : Bool
  logprob : Bool
  logprobStart : Int
  topLogprobs : Int
  lora : Py
  session : Py

/-- `str(x)` (T L345, L354). -/
def Env.toStr (e : Env) : Py → String
  | .str s => s
  | v => e.pyStr v

/-- `str(text[0]) if isinstance(text, list) else str(text)` (T L354). -/
def Env.textOf (e : Env) : Py → Option String
  | .list [] => none
  | .list (x :: _) => some (e.toStr x)
  | v => some (e.toStr v)

/-- `_to_image` (T L414-429): `none` is an exception. -/
def Env.toImage (e : Env) : Py → Option Py
  | .none => some .none
  | .str s => e.open_ (.str s)
  | v => some v

/-- `_normalize_image_input` (T L405-435). -/
def Env.images (e : Env) (v : Py) : Option (List Py) :=
  match v with
  | .list l => (l.mapM e.toImage).map (·.filter fun x => !x.isNone)
  | v => (e.toImage v).map (fun x => [x].filter fun x => !x.isNone)

/-- `_collect_mm_inputs` (T L437-482), the image part: processor output (with its token ids) or the raw data; `none` is an
exception. -/
def Env.image (e : Env) (v : Py) (text : String) : Option (Option (Option (List Int) × Nat) × Py) :=
  if v.isNone then some (none, .none)
  else match e.proc with
    | none => some (none, v)
    | some p => match e.images v with
      | none => none
      | some ims => match p ims text with
        | some x => some (some x, .none)
        | none => some (none, v)

/-- What the tokenizer sends on. -/
inductive Fwd where
  | tok (t : Tok)
  | abort (rid : Option Py)

/-- `list(raw_request["input_ids"])` (T L342): `none` is a `TypeError`. -/
def pyList : Py → Option (List Py)
  | .list l => some l
  | .str s => some (s.toList.map fun c => .str c.toString)
  | .dict ks _ => some (ks.map .str)
  | _ => none

/-- `m.get(key)`: `None` when the key is missing. -/
def Msg.get (m : Msg) (k : String) : Py := (m k).getD .none

/-- `int(m.get(key, default))` (T L399-400). -/
def intOr (m : Msg) (k : String) (d : Int) : Option Int := ((m k).getD (.int d)).toInt

/-- The text and the token ids of a request (T L340-367). -/
def Env.prompt (e : Env) (m : Msg) : Option (String × List Py) :=
  if (m.get "input_ids").isNone = false then
    match pyList (m.get "input_ids"), (match m.get "text" with
      | .list l => e.textOf (.list l)
      | v => some (if v.truthy then e.toStr v else "")) with
    | some ids, some t => some (t, ids)
    | _, _ => none
  else if (m.get "text").isNone then none
  else (e.textOf (m.get "text")).map fun t => (t, (e.enc t).map .int)

/-- `_tokenize` (T L318-403): `none` is an exception. -/
def Env.tokenize (e : Env) (m : Msg) : Option Fwd :=
  if (m.get "abort").truthy then some (.abort (m "rid"))
  else
    match e.prompt m with
    | none => none
    | some (text, ids) =>
      match e.image (m.get "image_data") text, intOr m "logprob_start_len" (-1), intOr m "top_logprobs_num" 0 with
      | some im, some start, some top =>
        some (.tok {
          rid := m.get "rid", text
          ids := match im.1 with
            | some (some pids, _) => pids.map .int
            | _ => ids
          imageInputs := im.1.map (·.2), imageData := im.2
          audio := m.get "audio_data", video := m.get "video_data"
          sampling := if (m.get "sampling_params").truthy then m.get "sampling_params" else .dict [] []
          stream := (m.get "stream").truthy
          logprob := (m.get "return_logprob").truthy
          logprobStart := start, topLogprobs := top
          lora := m.get "lora_path", session := m.get "session_params" })
      | _, _, _ => none

/-- `event_loop` (T L128-144): an exception ends the process. What has been sent to the scheduler, and whether the process is
still there. -/
def Env.loop (e : Env) : List Msg → List Fwd × Bool
  | [] => ([], true)
  | m :: ms =>
    match e.tokenize m with
    | none => ([], false)
    | some x => let r := e.loop ms; (x :: r.1, r.2)

/-! ### Sampling parameters in the scheduler and the model runner -/

/-- Everything that scheduler and model runner read from the sampling parameters (S L156-163, S L634-643; model_runner_process.py
L264-270): what decides when a request ends, and what is handed to the sampler. -/
structure Opts where
  maxNew : Py
  stopIds : List Py
  temperature : Py
  topP : Py
  topK : Py
  repetition : Py
  frequency : Py
  presence : Py

/-- `dict(raw.sampling_params) if raw.sampling_params else {}` (S L634). `dict([…])` of a list that is not a list of pairs is an
exception; lists of pairs are left out. -/
def pyDict : Py → Option (String → Option Py)
  | .dict ks vs => some (fun k => (Py.dict ks vs).get k)
  | v => if v.truthy then none else some (fun _ => none)

/-- S L634-643 with the defaults of S L156-163 and model_runner_process.py L264-270; `none` is an exception. The end-of-sequence
tokens are merged in by `Sched.mergeStop` (S L639-642), not here. -/
def readOpts (defNew : Int) (sp : Py) : Option Opts :=
  match pyDict sp with
  | none => none
  | some d =>
    match (match d "stop_token_ids" with
      | none => some []
      | some v => pyList v) with
    | none => none
    | some ids => some {
        maxNew := (d "max_new_tokens").getD (.int defNew), stopIds := ids
        temperature := (d "temperature").getD (.num 1), topP := (d "top_p").getD (.num 1)
        topK := (d "top_k").getD (.int (-1)), repetition := (d "repetition_penalty").getD (.num 1)
        frequency := (d "frequency_penalty").getD (.num 0), presence := (d "presence_penalty").getD (.num 0) }

end Verif.Serve
