import Verif.Token.WordPiece

/-!
# Conversation templates of DeepSeek-OCR

Models of mllm/models/deepseek_ocr/conversation_preprocess.hpp (`CP`: `Conversation` L36-L229, the registry L231-L284,
`formatMessages` L286-L322).  Strings are lists of characters; the stop criteria, which nothing reads, are left out.
-/

namespace Verif.Ocr.Conv

abbrev Str := List Char

/-- `SeparatorStyle` (CP L27-L32). -/
inductive Style
  | deepSeek
  | deepSeekV2
  | plain
  | alignment
  deriving DecidableEq

/-- `Conversation` (CP L36-L229); `sep2 = none` is used as the empty string (CP L67). -/
structure Conversation where
  name : Str
  systemTemplate : Str
  systemMessage : Str
  messages : List (Str × Str)
  style : Style
  sep : Str
  sep2 : Str

/-- `{system_message}` (CP L214). -/
def hole : Str := "{system_message}".toList

/-- `formatSystemTemplate` (CP L212-L217): the first hole is filled. -/
def Conversation.system (c : Conversation) : Str :=
  match Token.findSub hole c.systemTemplate with
  | none => c.systemTemplate
  | some p => c.systemTemplate.take p ++ c.systemMessage ++ c.systemTemplate.drop (p + hole.length)

/-- `seps[i % 2]` (CP L67). -/
def Conversation.sepAt (c : Conversation) (i : Nat) : Str := if i % 2 = 0 then c.sep else c.sep2

/-- One message of `getPrompt`, the `i`-th (CP L71-L78, L86-L95, L101-L104, L110-L119). -/
def Conversation.message (c : Conversation) (i : Nat) (m : Str × Str) : Str :=
  match c.style with
  | .deepSeek => if m.2 ≠ [] then m.1 ++ ": ".toList ++ m.2 ++ c.sepAt i else m.1 ++ ":".toList
  | .deepSeekV2 =>
    if m.2 ≠ [] then
      if m.1 = "User".toList then "<｜sft▁begin｜>\n".toList ++ m.2 ++ c.sep else m.2 ++ c.sep2
    else []
  | .plain => if m.2 ≠ [] then m.2 ++ c.sepAt i else []
  | .alignment =>
    if m.2 ≠ [] then (if i % 2 = 0 then "<image>\n".toList ++ c.sepAt i else m.2 ++ c.sepAt i) else []

/-- The messages from the `i`-th on. -/
def Conversation.body (c : Conversation) : Nat → List (Str × Str) → Str
  | _, [] => []
  | i, m :: ms => c.message i m ++ c.body (i + 1) ms

/-- `getPrompt` (CP L63-L125). -/
def Conversation.prompt (c : Conversation) : Str :=
  (match c.style with
    | .deepSeek | .deepSeekV2 => if c.system ≠ [] then c.system ++ c.sep else []
    | _ => []) ++ c.body 0 c.messages

/-- `toOpenAIApiMessages` (CP L169-L186) with offset 0, from the `i`-th message on. -/
def openAI : Nat → List (Str × Str) → List (Str × Str)
  | _, [] => []
  | i, m :: ms =>
    (if i % 2 = 0 then [("user".toList, m.2)] else if m.2 ≠ [] then [("assistant".toList, m.2)] else []) ++ openAI (i + 1) ms

def Conversation.toOpenAI (c : Conversation) : List (Str × Str) := ("system".toList, c.system) :: openAI 0 c.messages

/-- The white space of `trim` (CP L292). -/
def white (c : Char) : Bool := c ∈ [' ', '\t', '\n', '\r', Char.ofNat 12, Char.ofNat 11]

/-- `trim` (CP L291-L297). -/
def trim (s : Str) : Str := ((s.dropWhile white).reverse.dropWhile white).reverse

/-! ## The registry -/

/-- `conv_templates` (CP L232). -/
abbrev Registry := List (Str × Conversation)

/-- `registerConvTemplate` without override (CP L237-L241); `debug`: assertions are compiled in; `none`: one fails. -/
def register (debug : Bool) (r : Registry) (c : Conversation) : Option Registry :=
  if debug ∧ (r.lookup c.name).isSome then none else some ((c.name, c) :: r)

def eos : Str := "<｜end▁of▁sentence｜>".toList

/-- The templates (CP L255-L283). -/
def deepseek : Conversation := ⟨"deepseek".toList, hole, [], [], .deepSeek, "\n\n".toList, eos⟩
def deepseekv2 : Conversation := ⟨"deepseekv2".toList, hole, [], [], .deepSeekV2, [], eos⟩
def plain : Conversation := ⟨"plain".toList, [], [], [], .plain, [], []⟩
def alignment : Conversation := ⟨"alignment".toList, [], [], [], .alignment, [], []⟩

/-- The user role the second template is registered with (CP L262). -/
def v2User : Str := "<｜User｜>".toList

/-- `initializeTemplates` (CP L253-L284). -/
def initAll (debug : Bool) (r : Registry) : Option Registry :=
  [deepseek, deepseekv2, plain, alignment].foldlM (register debug) r

/-- `formatMessages` (CP L286-L322) on a template: a copy gets the system message and the messages, trimmed. -/
def format (c : Conversation) (sys : Str) (ms : List (Str × Str)) : Str :=
  trim ({ c with systemMessage := sys, messages := c.messages ++ ms.map fun m => (m.1, trim m.2) } : Conversation).prompt

end Verif.Ocr.Conv
