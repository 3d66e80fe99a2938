import Verif.Serve.Batch
import Verif.Sched.Props

/-!
# Options on their way to the sampler (C90, C91), and requests that cannot be processed (C92)

`pymllm/server/launch.py` is "H L…".
-/

namespace Verif.Serve

/-! ### C90: from the call to the scheduler -/

/-- The names the tokenizer looks at (T L334-403). -/
def known : List String := ["abort", "rid", "text", "input_ids", "sampling_params", "return_logprob", "logprob_start_len",
  "top_logprobs_num", "stream", "image_data", "video_data", "audio_data", "lora_path", "session_params"]

/-- An option that may be left out. -/
def optInt (d : Int) : Py → Int
  | .int i => i
  | _ => d

/-- `None` or an integer. -/
def IsOptInt (v : Py) : Prop := v = .none ∨ ∃ i, v = .int i

theorem lookup_none {α : Type} {k : String} : ∀ {l : List (String × α)}, (∀ x ∈ l, x.1 ≠ k) → l.lookup k = none
  | [], _ => rfl
  | (a, b) :: l, h => by
    have h1 : (k == a) = false := by
      have := h (a, b) List.mem_cons_self
      simp only [beq_eq_false_iff_ne, ne_eq]; exact fun e => this e.symm
    rw [List.lookup_cons, h1]
    exact lookup_none (fun x hx => h x (List.mem_cons_of_mem _ hx))

theorem payload_known {r : Req} (hx : ∀ x ∈ r.extra, x.1 ∉ known) {k : String} (hk : k ∈ known) : r.payload k = r.field k := by
  unfold Req.payload
  rw [lookup_none (fun x hx' e => hx x hx' (e ▸ hk))]
  rfl

theorem get_present (v : Py) : (present v).getD .none = v := by
  cases v <;> simp [present, Py.isNone]

theorem intOr_field {v : Py} (h : IsOptInt v) (d : Int) : ((present v).getD (.int d)).toInt = some (optInt d v) := by
  rcases h with rfl | ⟨i, rfl⟩ <;> simp [present, Py.isNone, Py.toInt, optInt]

section
variable {r : Req} (hx : ∀ x ∈ r.extra, x.1 ∉ known)
include hx

theorem msg_abort : Msg.get r.payload "abort" = .none := by
  unfold Msg.get; rw [payload_known hx (by decide)]; rfl
theorem msg_rid : Msg.get r.payload "rid" = r.rid := by
  unfold Msg.get; rw [payload_known hx (by decide)]; exact get_present _
theorem msg_text : Msg.get r.payload "text" = r.text := by
  unfold Msg.get; rw [payload_known hx (by decide)]; exact get_present _
theorem msg_ids : Msg.get r.payload "input_ids" = r.inputIds := by
  unfold Msg.get; rw [payload_known hx (by decide)]; exact get_present _
theorem msg_sampling : Msg.get r.payload "sampling_params" = r.sampling := by
  unfold Msg.get; rw [payload_known hx (by decide)]; exact get_present _
theorem msg_logprob : Msg.get r.payload "return_logprob" = r.logprob := by
  unfold Msg.get; rw [payload_known hx (by decide)]; exact get_present _
theorem msg_image : Msg.get r.payload "image_data" = r.image := by
  unfold Msg.get; rw [payload_known hx (by decide)]; exact get_present _
theorem msg_video : Msg.get r.payload "video_data" = r.video := by
  unfold Msg.get; rw [payload_known hx (by decide)]; exact get_present _
theorem msg_audio : Msg.get r.payload "audio_data" = r.audio := by
  unfold Msg.get; rw [payload_known hx (by decide)]; exact get_present _
theorem msg_lora : Msg.get r.payload "lora_path" = r.lora := by
  unfold Msg.get; rw [payload_known hx (by decide)]; exact get_present _
theorem msg_session : Msg.get r.payload "session_params" = r.session := by
  unfold Msg.get; rw [payload_known hx (by decide)]; exact get_present _
theorem msg_stream : Msg.get r.payload "stream" = .bool r.stream := by
  unfold Msg.get; rw [payload_known hx (by decide)]; rfl
theorem msg_start (d : Int) (h : IsOptInt r.logprobStart) : intOr r.payload "logprob_start_len" d = some (optInt d r.logprobStart) := by
  unfold intOr; rw [payload_known hx (by decide)]; exact intOr_field h d
theorem msg_top (d : Int) (h : IsOptInt r.topLogprobs) : intOr r.payload "top_logprobs_num" d = some (optInt d r.topLogprobs) := by
  unfold intOr; rw [payload_known hx (by decide)]; exact intOr_field h d
end

/-- What the tokenizer makes of a request, in terms of the caller's arguments. -/
def Req.tokenized (r : Req) (text : String) (ids : List Py) : Tok where
  rid := r.rid
  text := text
  ids := ids
  imageInputs := none
  imageData := r.image
  audio := r.audio
  video := r.video
  sampling := if r.sampling.truthy then r.sampling else .dict [] []
  stream := r.stream
  logprob := r.logprob.truthy
  logprobStart := optInt (-1) r.logprobStart
  topLogprobs := optInt 0 r.topLogprobs
  lora := r.lora
  session := r.session

/-- C90: a text prompt and its options reach the scheduler as they were given: the tokens of the prompt, the sampling parameters,
and all the rest; keyword arguments the engine does not know change nothing. (Without images, or without a processor for
them.) -/
theorem C90_text_partial (e : Env) {r : Req} {p : String} (ht : r.text = .str p) (hi : r.inputIds = .none)
    (him : r.image = .none ∨ e.proc = none) (h1 : IsOptInt r.logprobStart) (h2 : IsOptInt r.topLogprobs)
    (hx : ∀ x ∈ r.extra, x.1 ∉ known) :
    e.tokenize r.payload = some (.tok (r.tokenized p ((e.enc p).map .int))) := by
  unfold Env.tokenize
  rw [msg_abort hx]
  simp only [Py.truthy, Bool.false_eq_true, if_false]
  have hp : e.prompt r.payload = some (p, (e.enc p).map .int) := by
    unfold Env.prompt; rw [msg_ids hx, msg_text hx, hi, ht]; simp [Py.isNone, Env.textOf, Env.toStr]
  rw [hp]
  have him' : e.image r.image p = some (none, r.image) := by
    unfold Env.image
    rcases him with h | h
    · rw [h]; rfl
    · rw [h]; cases r.image <;> simp [Py.isNone]
  dsimp only
  rw [msg_image hx, him', msg_start hx _ h1, msg_top hx _ h2]
  simp only [msg_rid hx, msg_sampling hx, msg_logprob hx, msg_video hx, msg_audio hx, msg_lora hx, msg_session hx, msg_stream hx,
    Py.truthy]
  rfl

/-- C90: the same for a prompt given as token ids, which are passed on as they are. -/
theorem C90_ids_partial (e : Env) {r : Req} {ids : List Py} (ht : r.text = .none) (hi : r.inputIds = .list ids)
    (him : r.image = .none ∨ e.proc = none) (h1 : IsOptInt r.logprobStart) (h2 : IsOptInt r.topLogprobs)
    (hx : ∀ x ∈ r.extra, x.1 ∉ known) :
    e.tokenize r.payload = some (.tok (r.tokenized "" ids)) := by
  unfold Env.tokenize
  rw [msg_abort hx]
  simp only [Py.truthy, Bool.false_eq_true, if_false]
  have hp : e.prompt r.payload = some ("", ids) := by
    unfold Env.prompt; rw [msg_ids hx, msg_text hx, hi, ht]; simp [Py.isNone, pyList, Py.truthy]
  rw [hp]
  have him' : e.image r.image "" = some (none, r.image) := by
    unfold Env.image
    rcases him with h | h
    · rw [h]; rfl
    · rw [h]; cases r.image <;> simp [Py.isNone]
  dsimp only
  rw [msg_image hx, him', msg_start hx _ h1, msg_top hx _ h2]
  simp only [msg_rid hx, msg_sampling hx, msg_logprob hx, msg_video hx, msg_audio hx, msg_lora hx, msg_session hx, msg_stream hx,
    Py.truthy]
  rfl

/-- C90: with a processor, the images are opened, and prompt and images go to the processor; its token ids replace those of the
text, and its output is passed on. -/
theorem C90_image_partial (e : Env) {r : Req} {p : String} {proc : List Py → String → Option (Option (List Int) × Nat)}
    {ims : List Py} {ids : Option (List Int)} {out : Nat} (ht : r.text = .str p) (hi : r.inputIds = .none)
    (hn : r.image ≠ .none) (hp : e.proc = some proc) (ho : e.images r.image = some ims) (hr : proc ims p = some (ids, out))
    (h1 : IsOptInt r.logprobStart) (h2 : IsOptInt r.topLogprobs) (hx : ∀ x ∈ r.extra, x.1 ∉ known) :
    e.tokenize r.payload = some (.tok { r.tokenized p ((ids.getD (e.enc p)).map .int) with
      imageInputs := some out, imageData := .none }) := by
  unfold Env.tokenize
  rw [msg_abort hx]
  simp only [Py.truthy, Bool.false_eq_true, if_false]
  have hpr : e.prompt r.payload = some (p, (e.enc p).map .int) := by
    unfold Env.prompt; rw [msg_ids hx, msg_text hx, hi, ht]; simp [Py.isNone, Env.textOf, Env.toStr]
  rw [hpr]
  have him' : e.image r.image p = some (some (ids, out), .none) := by
    unfold Env.image
    have : r.image.isNone = false := by revert hn; cases r.image <;> simp [Py.isNone]
    rw [this, hp]; simp only [Bool.false_eq_true, if_false, ho, hr]
  dsimp only
  rw [msg_image hx, him', msg_start hx _ h1, msg_top hx _ h2]
  simp only [msg_rid hx, msg_sampling hx, msg_logprob hx, msg_video hx, msg_audio hx, msg_lora hx, msg_session hx, msg_stream hx,
    Py.truthy]
  cases ids <;> rfl

def demoOpen : Py → Option Py
  | .str "cat.png" => some (.obj 1)
  | _ => none

/-- An environment for the examples: tokens are character codes, a processor that counts images, only "cat.png" can be opened. -/
def demo : Env where
  enc := fun s => s.toList.map fun c => (c.toNat : Int)
  proc := some fun ims _ => some (some [(ims.length : Int)], 5)
  open_ := demoOpen
  pyStr := fun _ => "?"

def demoReq : Req where
  rid := .str "a"
  text := .str "A"
  sampling := .dict ["top_k"] [.int 3]
  extra := [("max_new_tokens", .int 4)]

/-- Non-vacuity. -/
example : demo.tokenize demoReq.payload =
    some (.tok { rid := .str "a", text := "A", ids := [.int 65], imageInputs := none, imageData := .none, audio := .none,
                 video := .none, sampling := .dict ["top_k"] [.int 3], stream := false, logprob := false, logprobStart := -1,
                 topLogprobs := 0, lora := .none, session := .none }) :=
  C90_text_partial demo (r := demoReq) (p := "A") rfl rfl (Or.inl rfl) (Or.inl rfl) (Or.inl rfl) (by simp [known, demoReq])

example : ∃ t, demo.tokenize (Req.payload { rid := .str "a", text := .str "A", image := .list [.str "cat.png"] }) = some (.tok t) ∧
    t.ids = [.int 1] ∧ t.imageInputs = some 5 :=
  ⟨_, C90_image_partial demo (r := { rid := .str "a", text := .str "A", image := .list [.str "cat.png"] }) (p := "A")
    (ims := [.obj 1]) (ids := some [1]) (out := 5) rfl rfl (by intro h; cases h) rfl rfl rfl (Or.inl rfl) (Or.inl rfl)
    (by simp), rfl, rfl⟩

/-! ### C91: HTTP options -/

/-- The sampling options of `/v1/completions` and `/v1/chat/completions` (H L180-234); `none` when not given. -/
structure HttpOpts where
  temperature : Option Py := none
  topP : Option Py := none
  topK : Option Py := none
  maxTokens : Option Py := none
  stop : Option Py := none
  frequency : Option Py := none
  presence : Option Py := none
  repetition : Option Py := none
  seed : Option Py := none

/-- `stop if isinstance(stop, list) else [stop]` (H L503). -/
def stopList : Py → Py
  | .list l => .list l
  | v => .list [v]

/-- `_build_sampling_params` (H L480-513): the entries, in order. -/
def HttpOpts.entries (a : HttpOpts) : List (String × Py) :=
  (a.temperature.map fun v => ("temperature", v)).toList ++ (a.topP.map fun v => ("top_p", v)).toList ++
  (a.topK.map fun v => ("top_k", v)).toList ++ (a.maxTokens.map fun v => ("max_new_tokens", v)).toList ++
  (a.stop.map fun v => ("stop", stopList v)).toList ++ (a.frequency.map fun v => ("frequency_penalty", v)).toList ++
  (a.presence.map fun v => ("presence_penalty", v)).toList ++ (a.repetition.map fun v => ("repetition_penalty", v)).toList ++
  (a.seed.map fun v => ("seed", v)).toList

/-- The dict of `_build_sampling_params`. -/
def HttpOpts.build (a : HttpOpts) : Py := .dict (a.entries.map (·.1)) (a.entries.map (·.2))

theorem zip_map {α β : Type} : ∀ l : List (α × β), (l.map (·.1)).zip (l.map (·.2)) = l
  | [] => rfl
  | (a, b) :: l => by simp [zip_map l]

theorem build_get (a : HttpOpts) (k : String) : a.build.get k = a.entries.lookup k := by
  simp only [HttpOpts.build, Py.get, zip_map]

theorem lookup_opt {k k' : String} (o : Option Py) :
    (o.map fun v => (k', v)).toList.lookup k = if k = k' then o else none := by
  cases o with
  | none => simp
  | some v =>
    simp only [Option.map_some, Option.toList_some, List.lookup_cons, List.lookup_nil]
    by_cases h : k = k'
    · simp [h]
    · have h' : (k == k') = false := by simpa using h
      rw [h', if_neg h]

theorem lookup_opt' {k k' : String} (o : Option Py) (g : Py → Py) :
    (o.map fun v => (k', g v)).toList.lookup k = if k = k' then o.map g else none := by
  cases o with
  | none => simp
  | some v =>
    simp only [Option.map_some, Option.toList_some, List.lookup_cons, List.lookup_nil]
    by_cases h : k = k'
    · simp [h]
    · have h' : (k == k') = false := by simpa using h
      rw [h', if_neg h]

theorem entries_lookup (a : HttpOpts) (k : String) : a.entries.lookup k =
    ((((((((if k = "temperature" then a.temperature else none).or (if k = "top_p" then a.topP else none)).or
      (if k = "top_k" then a.topK else none)).or (if k = "max_new_tokens" then a.maxTokens else none)).or
      (if k = "stop" then a.stop.map stopList else none)).or (if k = "frequency_penalty" then a.frequency else none)).or
      (if k = "presence_penalty" then a.presence else none)).or (if k = "repetition_penalty" then a.repetition else none)).or
      (if k = "seed" then a.seed else none) := by
  simp only [HttpOpts.entries, List.lookup_append, lookup_opt, lookup_opt']

theorem build_dict (a : HttpOpts) : ∃ d, pyDict a.build = some d ∧ ∀ k, d k = a.entries.lookup k :=
  ⟨_, rfl, fun k => build_get a k⟩

/-- C91: temperature, top-p, top-k, the token limit and the three penalties of an HTTP request are what the scheduler and the
sampler use; what is not given gets the default. The end conditions come from the token limit alone. -/
theorem C91_options_partial (a : HttpOpts) (defNew : Int) : readOpts defNew a.build = some {
    maxNew := a.maxTokens.getD (.int defNew), stopIds := [], temperature := a.temperature.getD (.num 1),
    topP := a.topP.getD (.num 1), topK := a.topK.getD (.int (-1)), repetition := a.repetition.getD (.num 1),
    frequency := a.frequency.getD (.num 0), presence := a.presence.getD (.num 0) } := by
  obtain ⟨d, h1, h2⟩ := build_dict a
  unfold readOpts
  rw [h1]
  have e1 : d "stop_token_ids" = none := by rw [h2, entries_lookup]; simp
  have e2 : d "max_new_tokens" = a.maxTokens := by rw [h2, entries_lookup]; simp
  have e3 : d "temperature" = a.temperature := by rw [h2, entries_lookup]; simp
  have e4 : d "top_p" = a.topP := by rw [h2, entries_lookup]; simp
  have e5 : d "top_k" = a.topK := by rw [h2, entries_lookup]; simp
  have e6 : d "repetition_penalty" = a.repetition := by rw [h2, entries_lookup]; simp
  have e7 : d "frequency_penalty" = a.frequency := by rw [h2, entries_lookup]; simp
  have e8 : d "presence_penalty" = a.presence := by rw [h2, entries_lookup]; simp
  dsimp only
  rw [e1]
  simp only [e2, e3, e4, e5, e6, e7, e8]

/-- Non-vacuity. -/
example : readOpts 256 (HttpOpts.build { temperature := some (.num (1 / 2)), maxTokens := some (.int 7), topK := some (.int 40) }) =
    some { maxNew := .int 7, stopIds := [], temperature := .num (1 / 2), topP := .num 1, topK := .int 40, repetition := .num 1,
           frequency := .num 0, presence := .num 0 } := C91_options_partial _ _

/-- C91, violated: stop strings and the seed reach neither the scheduler nor the sampler: they change nothing. -/
theorem C91_stop_seed_ignored_violated (a : HttpOpts) (stop seed : Option Py) (defNew : Int) :
    readOpts defNew ({ a with stop := stop, seed := seed } : HttpOpts).build = readOpts defNew a.build := by
  rw [C91_options_partial, C91_options_partial]

/-- The scheduler's view of a request with these options: the limit and the stop tokens. -/
def toRaw (rid inp : Nat) (stream : Bool) (o : Opts) : Option Sched.Raw :=
  match o.maxNew, o.stopIds.mapM Py.toInt with
  | .int n, some ids => some ⟨rid, inp, some n, ids, stream⟩
  | _, _ => none

/-- The scheduler after the three steps of the next theorem. -/
def stopSt : Sched.St :=
  (((Sched.St.init.recv ⟨0, 1, some 3, [], false⟩).iter ⟨4, 100, 100, [], 256⟩ (fun _ => (97, 0))).iter
      ⟨4, 100, 100, [], 256⟩ (fun _ => (98, 0))).iter ⟨4, 100, 100, [], 256⟩ (fun _ => (99, 0))

/-- C91, violated: an answer that goes on after the stop string. A request for at most three tokens with the stop string "b";
the model produces "a", "b", "c", and the client is sent all of them, with "length" as the reason for the end. -/
theorem C91_stop_string_violated : ∃ (o : Opts) (raw : Sched.Raw) (c : Sched.Cfg) (evs : List Sched.Ev) (s : Sched.St),
    readOpts 256 (HttpOpts.build { maxTokens := some (.int 3), stop := some (.str "b") }) = some o ∧
    toRaw 0 1 false o = some raw ∧ Sched.Reach c evs s ∧ .recv raw ∈ evs ∧
    s.sent = [⟨0, some .length, [97, 98, 99], 0, [97, 98, 99]⟩] := by
  refine ⟨_, ⟨0, 1, some 3, [], false⟩, ⟨4, 100, 100, [], 256⟩,
    [.iter (fun _ => (99, 0)), .iter (fun _ => (98, 0)), .iter (fun _ => (97, 0)), .recv ⟨0, 1, some 3, [], false⟩], stopSt,
    C91_options_partial _ _, rfl, ?_, by simp, by decide +kernel⟩
  exact .step (.iter (fun _ => (99, 0))) (.step (.iter (fun _ => (98, 0))) (.step (.iter (fun _ => (97, 0)))
      (.step (.recv ⟨0, 1, some 3, [], false⟩) .init (by simp [Sched.Ev.ok, Sched.St.init])) (by simp [Sched.Ev.ok]))
      (by simp [Sched.Ev.ok])) (by simp [Sched.Ev.ok])

/-! ### C92: a request that cannot be processed -/

/-- C92: as long as every request can be processed, each is passed on, in order. -/
theorem C92_forwarded_partial (e : Env) : ∀ {ms : List Msg} {xs : List Fwd}, ms.map e.tokenize = xs.map some → e.loop ms = (xs, true)
  | [], [], _ => rfl
  | [], _ :: _, h => by simp at h
  | _ :: _, [], h => by simp at h
  | m :: ms, x :: xs, h => by
    simp only [List.map_cons, List.cons.injEq] at h
    unfold Env.loop
    rw [h.1, C92_forwarded_partial e h.2]

/-- C92, violated: one request that cannot be processed ends the tokenizer; none of the requests after it, of whatever client,
is ever passed on. -/
theorem C92_all_lost_violated (e : Env) {bad : Msg} (hb : e.tokenize bad = none) (post : List Msg) :
    ∀ {pre : List Msg} {xs : List Fwd}, pre.map e.tokenize = xs.map some → e.loop (pre ++ bad :: post) = (xs, false)
  | [], [], _ => by simp only [List.nil_append]; unfold Env.loop; rw [hb]
  | [], _ :: _, h => by simp at h
  | _ :: _, [], h => by simp at h
  | m :: ms, x :: xs, h => by
    simp only [List.map_cons, List.cons.injEq] at h
    rw [List.cons_append]
    unfold Env.loop
    rw [h.1, C92_all_lost_violated e hb post h.2]

/-- A part of the content of a chat message (H L143-151). -/
inductive Part where
  | text (s : String)
  | imageUrl (url : String)
  deriving DecidableEq

/-- `_extract_image_data` (H L609-618): the URLs of the images of a chat, in order, and the prompt goes with them (H L902-908). -/
def imageData (parts : List Part) : Py :=
  match parts.filterMap (fun p => match p with | .imageUrl u => some (Py.str u) | .text _ => none) with
  | [] => .none
  | l => .list l

/-- C92, violated: with a multimodal processor, a chat request whose image URL is not the path of a file on the server (a web
address, or inline data, as in the OpenAI API) is such a request. -/
theorem C92_image_url_violated (e : Env) {p : List Py → String → Option (Option (List Int) × Nat)} (hp : e.proc = some p)
    {parts : List Part} {url : String} (hu : .imageUrl url ∈ parts) (ho : e.open_ (.str url) = none) {rid prompt : String}
    {sp : Py} {stream : Bool} :
    e.tokenize (Req.payload { rid := .str rid, text := .str prompt, sampling := sp, stream := stream, image := imageData parts }) = none := by
  set r : Req := { rid := .str rid, text := .str prompt, sampling := sp, stream := stream, image := imageData parts } with hr
  have hx : ∀ x ∈ r.extra, x.1 ∉ known := by intro x hx; simp [hr] at hx
  have hmem : Py.str url ∈ parts.filterMap (fun p => match p with | .imageUrl u => some (Py.str u) | .text _ => none) :=
    List.mem_filterMap.2 ⟨_, hu, rfl⟩
  obtain ⟨l, hl, hml⟩ : ∃ l, r.image = .list l ∧ Py.str url ∈ l := by
    simp only [hr, imageData]
    split
    · next h => rw [h] at hmem; cases hmem
    · exact ⟨_, rfl, hmem⟩
  unfold Env.tokenize
  rw [msg_abort hx]
  simp only [Py.truthy, Bool.false_eq_true, if_false]
  have hpr : e.prompt r.payload = some (prompt, (e.enc prompt).map .int) := by
    unfold Env.prompt; rw [msg_ids hx, msg_text hx]; simp [hr, Py.isNone, Env.textOf, Env.toStr]
  rw [hpr]
  have hop : e.toImage (.str url) = none := ho
  have hnone : ∀ l : List Py, Py.str url ∈ l → l.mapM e.toImage = none := by
    intro l
    induction l with
    | nil => intro h; cases h
    | cons a l ih =>
      intro h
      rw [List.mapM_cons]
      rcases List.mem_cons.1 h with h | h
      · rw [← h, hop]; rfl
      · rw [ih h]; cases e.toImage a <;> rfl
  have him' : e.image r.image prompt = none := by
    unfold Env.image
    rw [hl, hp]; simp only [Py.isNone, Bool.false_eq_true, if_false, Env.images, hnone l hml, Option.map_none]
  dsimp only
  rw [msg_image hx, him']

/-- C92, violated: a list of one value for `top_logprobs_num` or `logprob_start_len`, which a batch of one prompt passes on as it
is, is such a request, too. -/
theorem C92_option_list_violated (e : Env) {r : Req} {l : List Py} (h : r.topLogprobs = .list l ∨ r.logprobStart = .list l)
    (hx : ∀ x ∈ r.extra, x.1 ∉ known) : e.tokenize r.payload = none := by
  unfold Env.tokenize
  rw [msg_abort hx]
  simp only [Py.truthy, Bool.false_eq_true, if_false]
  split
  · rfl
  · have h2 : intOr r.payload "top_logprobs_num" 0 = none ∨ intOr r.payload "logprob_start_len" (-1) = none := by
      rcases h with h | h
      · left; unfold intOr; rw [payload_known hx (by decide)]; simp [Req.field, h, present, Py.isNone, Py.toInt]
      · right; unfold intOr; rw [payload_known hx (by decide)]; simp [Req.field, h, present, Py.isNone, Py.toInt]
    rcases h2 with h2 | h2
    · split
      · next h3 => rw [h2] at h3; cases h3
      · rfl
    · split
      · next h3 _ => rw [h2] at h3; cases h3
      · rfl

/-- C92, violated, and so is `sampling_params` in a list of one, in the scheduler: reading it is an exception there. -/
theorem C92_param_list_violated (defNew : Int) {l : List Py} (h : l ≠ []) : readOpts defNew (.list l) = none := by
  unfold readOpts pyDict
  cases l with
  | nil => exact absurd rfl h
  | cons a l => simp [Py.truthy]

/-- Non-vacuity: a good request, an image from the web, and another client's request after it. -/
example : ∃ x, demo.loop [Req.payload { rid := .str "a", text := .str "A" },
      Req.payload { rid := .str "b", text := .str "B", image := imageData [.text "what is", .imageUrl "https://x/y.png"] },
      Req.payload { rid := .str "c", text := .str "C" }] = ([x], false) := by
  refine ⟨_, C92_all_lost_violated demo (pre := [Req.payload { rid := .str "a", text := .str "A" }]) ?_ _
    (xs := [.tok (Req.tokenized { rid := .str "a", text := .str "A" } "A" [.int 65])]) ?_⟩
  · exact C92_image_url_violated demo (parts := [.text "what is", .imageUrl "https://x/y.png"]) rfl (url := "https://x/y.png")
      (by simp) (by simp [demo, demoOpen]) (sp := .none) (stream := false)
  · simp only [List.map_cons, List.map_nil]
    rw [C90_text_partial demo (r := { rid := .str "a", text := .str "A" }) (p := "A") rfl rfl (Or.inl rfl) (Or.inl rfl) (Or.inl rfl) (by simp)]
    rfl

end Verif.Serve
