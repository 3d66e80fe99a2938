import Verif.Prelude
/-
Model of the parsers that separate reasoning, tool calls and content in the answers of the server (C59-C62).
Sources: pymllm/parsers/reasoning_parser.py ("R L…"), pymllm/parsers/tool_call_parser.py ("T L…"),
pymllm/server/launch.py ("S L…").

Simplifications: a string is a list of characters. `str.strip` removes the characters of a set `ws`. Reading a call body
(`json.loads`, regular expressions) is a parameter where stated; tool-call ids (random) are left out.
`_parse_call_body` fails with an exception if the body is JSON but not an object (`obj.get`); this is not modelled.
-/
namespace Verif.Parse

abbrev Text := List Char

/-- `str.find` with a non-negative result or -1 (`none`). -/
def find (pat : Text) : Text → Option Nat
  | [] => if pat = [] then some 0 else none
  | c :: s => if pat.isPrefixOf (c :: s) then some 0 else (find pat s).map (· + 1)

/-- `_could_be_partial`, R L207-212, T L429-433. -/
def partialTag (text pat : Text) : Bool := (List.range' 1 (pat.length - 1)).any fun i => (pat.take i).isSuffixOf text

/-- What is passed on and what is held back when the tag was not found: R L163-174 and R L187-194, T L230-240. (`safe` may be
negative in the code, then nothing is passed on; truncated subtraction gives 0.) -/
def passOn (pat buf : Text) : Text × Text :=
  if partialTag buf pat then
    let safe := buf.length + 1 - pat.length
    (buf.take safe, buf.drop safe)
  else (buf, [])

/-! ### Reasoning -/

/-- `_DetectorConfig` (R L28-32) and the option `stream_reasoning` (R L70). -/
structure RCfg where
  start : Text
  stop : Text
  force : Bool
  stream : Bool

/-- The streaming state, R L82-87. -/
structure RSt where
  buf : Text
  inR : Bool
  consumed : Bool
  done : Bool
  deriving DecidableEq, Repr

/-- R L82-87. -/
def RSt.init (c : RCfg) : RSt := ⟨[], c.force, false, false⟩

/-- R L141-154: forced mode looks for a start tag; `true`: return at once. -/
def RSt.strip (c : RCfg) (s : RSt) : RSt × Bool :=
  if s.inR ∧ ¬ s.consumed then
    match find c.start s.buf with
    | some i => ({ s with buf := s.buf.drop (i + c.start.length), consumed := true }, false)
    | none => if partialTag s.buf c.start then (s, true) else ({ s with consumed := true }, false)
  else (s, false)

/-- R L156-174: look for the start tag; the content found, and `true`: return at once. -/
def RSt.seek (c : RCfg) (s : RSt) : RSt × Text × Bool :=
  if s.inR then (s, [], false) else
  match find c.start s.buf with
  | some i => ({ s with buf := s.buf.drop (i + c.start.length), inR := true, consumed := true }, s.buf.take i, false)
  | none => ({ s with buf := (passOn c.start s.buf).2 }, (passOn c.start s.buf).1, true)

/-- R L176-194: look for the end tag; reasoning and content found. -/
def RSt.close (c : RCfg) (s : RSt) : RSt × Text × Text :=
  if s.inR then
    match find c.stop s.buf with
    | some i => ({ s with buf := [], inR := false, done := true }, s.buf.take i, s.buf.drop (i + c.stop.length))
    | none => ({ s with buf := (passOn c.stop s.buf).2 }, (passOn c.stop s.buf).1, [])
  else (s, [], [])

/-- `parse_stream_chunk`, R L126-199: new state, reasoning, content. -/
def RSt.chunk (c : RCfg) (s : RSt) (d : Text) : RSt × Text × Text :=
  if d = [] then (s, [], [])
  else if s.done then (s, [], d)
  else
    let p := RSt.strip c { s with buf := s.buf ++ d }
    if p.2 then (p.1, [], [])
    else
      let q := p.1.seek c
      if q.2.2 then (q.1, [], q.2.1)
      else
        let r := q.1.close c
        (r.1, if c.stream then r.2.1 else [], q.2.1 ++ r.2.2)

/-- A stream of chunks: state, all the reasoning, all the content. -/
def RSt.run (c : RCfg) (ds : List Text) : RSt × Text × Text :=
  ds.foldl (fun x d => ((x.1.chunk c d).1, x.2.1 ++ (x.1.chunk c d).2.1, x.2.2 ++ (x.1.chunk c d).2.2)) (.init c, [], [])

/-- `str.strip`. -/
def strip (ws : Char → Bool) (t : Text) : Text := ((t.dropWhile ws).reverse.dropWhile ws).reverse

/-- `parse_non_stream`, R L91-120 (`reasoning or None`: the empty reasoning is `None`). -/
def RCfg.whole (c : RCfg) (ws : Char → Bool) (t : Text) : Option Text × Text :=
  if find c.start t = none ∧ ¬ c.force then (none, t)
  else
    let reasonStart := match find c.start t with | none => 0 | some i => i + c.start.length
    let before := match find c.start t with | none => [] | some i => t.take i
    let p := match find c.stop t with
      | some e => if reasonStart ≤ e then ((t.drop reasonStart).take (e - reasonStart), t.drop (e + c.stop.length)) else (t.drop reasonStart, [])
      | none => (t.drop reasonStart, [])
    let r := strip ws p.1
    (if r = [] then none else some r, strip ws (before ++ p.2))

/-! ### Tool calls -/

/-- `ToolCallItem`, T L38-45. -/
structure Item where
  name : Option Text
  args : Text
  index : Nat
  deriving DecidableEq, Repr

/-- `_FormatConfig` (T L73-79), `str.strip`, and how call bodies are read: `parse` is `_parse_call_body` (T L289-328; name and
arguments), `nameOf` is `_try_extract_name` (T L384-390), `argsOf` is `_try_extract_args_partial` (T L392-417). -/
structure TCfg where
  bot : Text
  stop : Text
  ws : Char → Bool
  parse : Text → Option (Option Text × Text)
  nameOf : Text → Option Text
  argsOf : Text → Option Text

/-- The streaming state, T L133-140 (`_completed_calls` is never used). -/
structure TSt where
  buf : Text
  inCall : Bool
  idx : Nat
  callBuf : Text
  prevArgs : Nat
  nameSent : Bool
  deriving DecidableEq, Repr

/-- T L133-140. -/
def TSt.init : TSt := ⟨[], false, 0, [], 0, false⟩

/-- `_stream_partial_call`, T L330-359. -/
def TSt.stream (c : TCfg) (s : TSt) : TSt × List Item :=
  let body := strip c.ws s.callBuf
  if body = [] then (s, [])
  else if ¬ s.nameSent then
    match c.nameOf body with
    | some n => ({ s with nameSent := true }, [⟨some n, [], s.idx⟩])
    | none => (s, [])
  else
    match c.argsOf body with
    | some a => if s.prevArgs < a.length then ({ s with prevArgs := a.length }, [⟨none, a.drop s.prevArgs, s.idx⟩]) else (s, [])
    | none => (s, [])

/-- `_finalize_call`, T L361-382. -/
def TSt.finalize (c : TCfg) (s : TSt) : List Item :=
  match c.parse (strip c.ws s.callBuf) with
  | none => []
  | some (n, a) =>
    if ¬ s.nameSent then [⟨n, a, s.idx⟩]
    else if a.drop s.prevArgs = [] then [] else [⟨none, a.drop s.prevArgs, s.idx⟩]

/-- One turn of the loop, T L218-271: state, content, items, and whether the loop goes on. -/
def TSt.turn (c : TCfg) (s : TSt) : TSt × Text × List Item × Bool :=
  if s.inCall then
    match (if c.stop = [] then none else find c.stop s.buf) with
    | some i =>
      let t := { s with callBuf := s.callBuf ++ s.buf.take i, buf := s.buf.drop (i + c.stop.length) }
      ({ t with inCall := false, idx := s.idx + 1 }, [], t.finalize c, true)
    | none =>
      let t := TSt.stream c { s with callBuf := s.callBuf ++ s.buf, buf := [] }
      (t.1, [], t.2, false)
  else
    match find c.bot s.buf with
    | some i => ({ s with buf := s.buf.drop (i + c.bot.length), inCall := true, callBuf := [], prevArgs := 0, nameSent := false }, s.buf.take i, [], true)
    | none => ({ s with buf := (passOn c.bot s.buf).2 }, (passOn c.bot s.buf).1, [], false)

/-- The loop T L218-271. The bound on the number of turns is never reached (`loop_more`). -/
def TSt.loop (c : TCfg) : Nat → TSt → TSt × Text × List Item
  | 0, s => (s, [], [])
  | n + 1, s =>
    let t := s.turn c
    if t.2.2.2 then let r := TSt.loop c n t.1; (r.1, t.2.1 ++ r.2.1, t.2.2.1 ++ r.2.2) else (t.1, t.2.1, t.2.2.1)

/-- `parse_stream_chunk`, T L199-273. -/
def TSt.chunk (c : TCfg) (s : TSt) (d : Text) : TSt × Text × List Item :=
  if d = [] then (s, [], []) else TSt.loop c (s.buf.length + d.length + 1) { s with buf := s.buf ++ d }

/-- A stream of chunks. -/
def TSt.run (c : TCfg) (ds : List Text) : TSt × Text × List Item :=
  ds.foldl (fun x d => ((x.1.chunk c d).1, x.2.1 ++ (x.1.chunk c d).2.1, x.2.2 ++ (x.1.chunk c d).2.2)) (.init, [], [])

/-- `flush`, T L275-283. -/
def TSt.flush (c : TCfg) (s : TSt) : List Item :=
  if s.inCall ∧ strip c.ws s.callBuf ≠ [] then s.finalize c else []

/-- The loop of `parse_non_stream`, T L165-190: content and calls from index `idx` on. The bound on the number of turns is never
reached. -/
def TCfg.scan (c : TCfg) : Nat → Nat → Text → Text × List Item
  | 0, _, t => (t, [])
  | n + 1, idx, t =>
    match find c.bot t with
    | none => (t, [])
    | some i =>
      let r := t.drop (i + c.bot.length)
      let p := match (if c.stop = [] then none else find c.stop r) with
        | none => (r, [])
        | some e => (r.take e, r.drop (e + c.stop.length))
      match c.parse (strip c.ws p.1) with
      | none => let x := TCfg.scan c n idx p.2; (t.take i ++ x.1, x.2)
      | some (name, args) => let x := TCfg.scan c n (idx + 1) p.2; (t.take i ++ x.1, ⟨name, args, idx⟩ :: x.2)

/-- `parse_non_stream`, T L146-193. -/
def TCfg.whole (c : TCfg) (t : Text) : Text × List Item :=
  if find c.bot t = none then (t, [])
  else let x := TCfg.scan c (t.length + 1) 0 t; (strip c.ws x.1, x.2)

/-- A regular expression `key\s*:\s*` at the beginning of the text: the text behind it. -/
def afterKey (ws : Char → Bool) (key t : Text) : Option Text :=
  if key.isPrefixOf t then
    match (t.drop key.length).dropWhile ws with
    | ':' :: u => some (u.dropWhile ws)
    | _ => none
  else none

/-- `re.search`: the first position where `m` matches. -/
def search (m : Text → Option Text) : Text → Option Text
  | [] => m []
  | c :: t => match m (c :: t) with
    | some x => some x
    | none => search m t

/-- `_try_extract_name` for JSON bodies, T L389-390: `"name"\s*:\s*"([^"]+)"`. -/
def jsonName (ws : Char → Bool) : Text → Option Text :=
  search fun t => match afterKey ws "\"name\"".toList t with
    | some ('"' :: u) => if u.takeWhile (· ≠ '"') ≠ [] ∧ u.dropWhile (· ≠ '"') ≠ [] then some (u.takeWhile (· ≠ '"')) else none
    | _ => none

/-- `_try_extract_args_partial` for JSON bodies, T L411-417: `"arguments"\s*:\s*(\{.*)`, else the same with `"parameters"`. -/
def jsonArgs (ws : Char → Bool) (t : Text) : Option Text :=
  let look := fun (key : Text) => search (fun t => match afterKey ws key t with
    | some ('{' :: u) => some ('{' :: u)
    | _ => none) t
  (look "\"arguments\"".toList).or (look "\"parameters\"".toList)

end Verif.Parse
