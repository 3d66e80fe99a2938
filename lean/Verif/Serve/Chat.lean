import Verif.Serve.HttpProps

/-!
# Chat streams (C97)
-/

namespace Verif.Serve

open Parse (Text RCfg RSt TCfg TSt First Parts Uncut Delivered Seen Faith partialTag strip)

/-! ### What a client makes of the events -/

def reasonText (es : List Delta) : Text := es.flatMap fun e => match e with
  | .reasoning t => t
  | _ => []

def contentText (es : List Delta) : Text := es.flatMap fun e => match e with
  | .content t => t
  | _ => []

def toolItems (es : List Delta) : List Parse.Item := es.filterMap fun e => match e with
  | .tool i => some i
  | _ => none

def finishes (es : List Delta) : List String := es.filterMap fun e => match e with
  | .finish r => some r
  | _ => none

def roles (es : List Delta) : Nat := es.countP fun e => match e with
  | .role => true
  | _ => false

section append
variable (a b : List Delta)
theorem reasonText_append : reasonText (a ++ b) = reasonText a ++ reasonText b := by simp [reasonText]
theorem contentText_append : contentText (a ++ b) = contentText a ++ contentText b := by simp [contentText]
theorem toolItems_append : toolItems (a ++ b) = toolItems a ++ toolItems b := by simp [toolItems]
theorem finishes_append : finishes (a ++ b) = finishes a ++ finishes b := by simp [finishes]
theorem roles_append : roles (a ++ b) = roles a + roles b := by simp [roles]
end append

section tools
variable (l : List Parse.Item)
theorem reasonText_tools : reasonText (l.map .tool) = [] := by simp [reasonText, List.flatMap_map]
theorem contentText_tools : contentText (l.map .tool) = [] := by simp [contentText, List.flatMap_map]
theorem finishes_tools : finishes (l.map .tool) = [] := by simp [finishes]
theorem roles_tools : roles (l.map .tool) = 0 := by simp [roles]
theorem toolItems_tools : toolItems (l.map .tool) = l := by
  simp [toolItems, List.filterMap_map, Function.comp_def]
end tools

/-! ### The parsers, chunk by chunk -/

def rOuts (c : ChatCfg) : RSt → List Text → List (Text × Text)
  | _, [] => []
  | s, d :: ds => (phase1 c s d).2 :: rOuts c (phase1 c s d).1 ds

def tState (c : ChatCfg) : TSt → List Text → TSt
  | s, [] => s
  | s, d :: ds => tState c (phase2 c s d).1 ds

def tOuts (c : ChatCfg) : TSt → List Text → List (Text × List Parse.Item)
  | _, [] => []
  | s, d :: ds => (phase2 c s d).2 :: tOuts c (phase2 c s d).1 ds

/-- The chunks of content. -/
def contents (c : ChatCfg) (ds : List Text) : List Text := (rOuts c (ChatSt.init c).r ds).map (·.2)

theorem phase1_chunk {c : ChatCfg} {rc : RCfg} (h : c.rc = some rc) (s : RSt) (d : Text) : phase1 c s d = s.chunk rc d := by
  unfold phase1 RSt.chunk; rw [h]
  by_cases hd : d = []
  · simp [hd]
  · simp [hd]

theorem phase2_chunk {c : ChatCfg} {tc : TCfg} (h : c.tc = some tc) (s : TSt) (d : Text) : phase2 c s d = s.chunk tc d := by
  unfold phase2 TSt.chunk; rw [h]
  by_cases hd : d = []
  · simp [hd]
  · simp [hd]

theorem rFold {c : ChatCfg} {rc : RCfg} (h : c.rc = some rc) : ∀ (ds : List Text) (s : RSt) (R C : Text),
    (ds.foldl (fun x d => ((x.1.chunk rc d).1, x.2.1 ++ (x.1.chunk rc d).2.1, x.2.2 ++ (x.1.chunk rc d).2.2)) (s, R, C)).2 =
      (R ++ ((rOuts c s ds).map (·.1)).flatten, C ++ ((rOuts c s ds).map (·.2)).flatten)
  | [], s, R, C => by simp [rOuts]
  | d :: ds, s, R, C => by
    rw [List.foldl_cons, rFold h ds]
    simp [rOuts, phase1_chunk h]

theorem rOuts_run {c : ChatCfg} {rc : RCfg} (h : c.rc = some rc) (ds : List Text) :
    ((rOuts c (ChatSt.init c).r ds).map (·.1)).flatten = Parse.reasoning rc ds ∧
    (contents c ds).flatten = Parse.content rc ds := by
  have := rFold h ds (.init rc) [] []
  have hi : (ChatSt.init c).r = .init rc := by simp [ChatSt.init, h]
  unfold Parse.reasoning Parse.content RSt.run contents
  rw [this, hi]; simp

theorem tFold {c : ChatCfg} {tc : TCfg} (h : c.tc = some tc) : ∀ (ds : List Text) (s : TSt) (C : Text) (I : List Parse.Item),
    ds.foldl (fun x d => ((x.1.chunk tc d).1, x.2.1 ++ (x.1.chunk tc d).2.1, x.2.2 ++ (x.1.chunk tc d).2.2)) (s, C, I) =
      (tState c s ds, C ++ ((tOuts c s ds).map (·.1)).flatten, I ++ ((tOuts c s ds).map (·.2)).flatten)
  | [], s, C, I => by simp [tOuts, tState]
  | d :: ds, s, C, I => by
    rw [List.foldl_cons, tFold h ds]
    simp [tOuts, tState, phase2_chunk h]

theorem tOuts_run {c : ChatCfg} {tc : TCfg} (h : c.tc = some tc) (ks : List Text) :
    ((tOuts c .init ks).map (·.1)).flatten = Parse.tContent tc ks ∧
    ((tOuts c .init ks).map (·.2)).flatten ++ (tState c .init ks).flush tc = Parse.tItems tc ks := by
  have := tFold h ks .init [] []
  unfold Parse.tContent Parse.tItems TSt.run
  rw [this]; simp

theorem rOuts_none {c : ChatCfg} (h : c.rc = none) : ∀ (ds : List Text) (s : RSt),
    rOuts c s ds = ds.map fun d => ([], d)
  | [], _ => rfl
  | d :: ds, s => by
    have e : ∀ s, phase1 c s d = (s, [], d) := by intro s; simp [phase1, h]
    simp only [rOuts, e, List.map_cons, rOuts_none h ds]

theorem tOuts_none {c : ChatCfg} (h : c.tc = none) : ∀ (ds : List Text) (s : TSt), tOuts c s ds = ds.map fun d => (d, [])
  | [], _ => rfl
  | d :: ds, s => by
    have e : ∀ s, phase2 c s d = (s, d, []) := by intro s; simp [phase2, h]
    simp only [tOuts, e, List.map_cons, tOuts_none h ds]

theorem chatEnd_text (c : ChatCfg) (t : TSt) (b : Bool) (r : String) :
    reasonText (chatEnd c t b r) = [] ∧ contentText (chatEnd c t b r) = [] ∧ roles (chatEnd c t b r) = 0 := by
  unfold chatEnd
  split
  · simp only [reasonText_append, contentText_append, roles_append, reasonText_tools, contentText_tools, roles_tools]
    exact ⟨rfl, rfl, rfl⟩
  · exact ⟨rfl, rfl, rfl⟩

/-- One chunk. -/
theorem chunk_text (c : ChatCfg) (s : ChatSt) (d : Text) (fin : Option String) :
    reasonText (s.chunk c d fin).2 = (phase1 c s.r d).2.1 ∧
    contentText (s.chunk c d fin).2 = (phase2 c s.t (phase1 c s.r d).2.2).2.1 ∧
    roles (s.chunk c d fin).2 = if s.first then 1 else 0 := by
  unfold ChatSt.chunk
  simp only [reasonText_append, contentText_append, roles_append, reasonText_tools, contentText_tools, roles_tools]
  set p := phase1 c s.r d
  set q := phase2 c s.t p.2.2
  have hf := fun r => chatEnd_text c q.1 (s.tools || !q.2.2.isEmpty) r
  refine ⟨?_, ?_, ?_⟩
  · have : reasonText (chatFin c q.1 (s.tools || !q.2.2.isEmpty) fin) = [] := by
      cases fin with
      | none => rfl
      | some r => exact (hf r).1
    rw [this]
    cases s.first <;> by_cases h1 : p.2.1 = [] <;> by_cases h2 : q.2.1 = [] <;> simp [h1, h2, reasonText]
  · have : contentText (chatFin c q.1 (s.tools || !q.2.2.isEmpty) fin) = [] := by
      cases fin with
      | none => rfl
      | some r => exact (hf r).2.1
    rw [this]
    cases s.first <;> by_cases h1 : p.2.1 = [] <;> by_cases h2 : q.2.1 = [] <;> simp [h1, h2, contentText]
  · have : roles (chatFin c q.1 (s.tools || !q.2.2.isEmpty) fin) = 0 := by
      cases fin with
      | none => rfl
      | some r => exact (hf r).2.2
    rw [this]
    cases s.first <;> by_cases h1 : p.2.1 = [] <;> by_cases h2 : q.2.1 = [] <;> simp [h1, h2, roles]

theorem chunk_none_tools (c : ChatCfg) (s : ChatSt) (d : Text) :
    toolItems (s.chunk c d none).2 = (phase2 c s.t (phase1 c s.r d).2.2).2.2 ∧ finishes (s.chunk c d none).2 = [] := by
  unfold ChatSt.chunk
  simp only [toolItems_append, finishes_append, toolItems_tools, finishes_tools]
  set p := phase1 c s.r d
  set q := phase2 c s.t p.2.2
  constructor
  · cases s.first <;> by_cases h1 : p.2.1 = [] <;> by_cases h2 : q.2.1 = [] <;> simp [h1, h2, toolItems, chatFin]
  · cases s.first <;> by_cases h1 : p.2.1 = [] <;> by_cases h2 : q.2.1 = [] <;> simp [h1, h2, finishes, chatFin]

theorem chunk_state (c : ChatCfg) (s : ChatSt) (d : Text) (fin : Option String) :
    (s.chunk c d fin).1.r = (phase1 c s.r d).1 ∧ (s.chunk c d fin).1.t = (phase2 c s.t (phase1 c s.r d).2.2).1 ∧
    (s.chunk c d fin).1.first = false ∧
    (s.chunk c d fin).1.tools = (s.tools || !(phase2 c s.t (phase1 c s.r d).2.2).2.2.isEmpty) := ⟨rfl, rfl, rfl, rfl⟩

theorem loop_text (c : ChatCfg) : ∀ (xs : List (Text × Option String)) (s : ChatSt),
    reasonText (chatLoop c s xs) = ((rOuts c s.r (xs.map (·.1))).map (·.1)).flatten ∧
    contentText (chatLoop c s xs) = ((tOuts c s.t ((rOuts c s.r (xs.map (·.1))).map (·.2))).map (·.1)).flatten
  | [], s => ⟨rfl, rfl⟩
  | x :: xs, s => by
    obtain ⟨h1, h2, _⟩ := chunk_text c s x.1 x.2
    obtain ⟨e1, e2, _⟩ := chunk_state c s x.1 x.2
    obtain ⟨i1, i2⟩ := loop_text c xs (s.chunk c x.1 x.2).1
    simp only [chatLoop, reasonText_append, contentText_append, h1, h2, i1, i2, e1, e2, List.map_cons, rOuts, tOuts,
      List.flatten_cons]
    exact ⟨trivial, trivial⟩

/-! ### C97 -/

/-- The text the model produced, in pieces. -/
def pieces (rs : List Item) : List Text := rs.map Item.delta

theorem pieces_eq (rs : List Item) : (rs.map fun r => (r.delta, r.reason none)).map (·.1) = pieces rs := by
  simp [pieces]

/-- C97: the reasoning that the client gets is what the reasoning parser makes of the pieces. -/
theorem C97_reasoning (c : ChatCfg) (rs : List Item) :
    reasonText (chatStream c rs) = match c.rc with
      | some rc => Parse.reasoning rc (pieces rs)
      | none => [] := by
  unfold chatStream
  rw [(loop_text c _ _).1, pieces_eq]
  cases h : c.rc with
  | some rc => exact (rOuts_run h _).1
  | none => simp [rOuts_none h]

/-- C97: the content that the client gets, without a tool parser. -/
theorem C97_content (c : ChatCfg) (ht : c.tc = none) (rs : List Item) :
    contentText (chatStream c rs) = match c.rc with
      | some rc => Parse.content rc (pieces rs)
      | none => (pieces rs).flatten := by
  unfold chatStream
  rw [(loop_text c _ _).2, pieces_eq, tOuts_none ht]
  cases h : c.rc with
  | some rc =>
    have := (rOuts_run h (pieces rs)).2
    simp only [contents] at this
    simp only [List.map_map, Function.comp_def] at this ⊢
    exact this
  | none => simp [rOuts_none h, Function.comp_def]

/-- C97: with a tool parser, the content is what that parser makes of the content that the reasoning parser leaves. -/
theorem C97_content_tools (c : ChatCfg) {tc : TCfg} (ht : c.tc = some tc) (rs : List Item) :
    contentText (chatStream c rs) = Parse.tContent tc (contents c (pieces rs)) ∧
    (contents c (pieces rs)).flatten = match c.rc with
      | some rc => Parse.content rc (pieces rs)
      | none => (pieces rs).flatten := by
  constructor
  · unfold chatStream
    rw [(loop_text c _ _).2, pieces_eq, ← (tOuts_run ht _).1]
    rfl
  · cases h : c.rc with
    | some rc => exact (rOuts_run h _).2
    | none => simp [contents, rOuts_none h, Function.comp_def]

theorem chatEnd_tools (c : ChatCfg) (t : TSt) (b : Bool) (r : String) :
    (∀ tc, c.tc = some tc → toolItems (chatEnd c t b r) = t.flush tc) ∧
    ∃ f, finishes (chatEnd c t b r) = [f] ∧ (chatEnd c t b r).getLast? = some (.finish f) ∧
      (f = if c.tc.isSome ∧ (b = true ∨ toolItems (chatEnd c t b r) ≠ []) then "tool_calls" else normReason r) := by
  unfold chatEnd
  cases h : c.tc with
  | none => exact ⟨fun _ h => (by cases h), _, rfl, rfl, by simp⟩
  | some tc =>
    simp only [toolItems_append, finishes_append, toolItems_tools, finishes_tools]
    refine ⟨fun _ h => ?_, _, rfl, by simp, ?_⟩
    · injection h with h; subst h; simp [toolItems]
    · have : toolItems [Delta.finish (if (b || !(t.flush tc).isEmpty) = true then "tool_calls" else normReason r)] = [] := rfl
      rw [this]
      cases b <;> cases t.flush tc <;> simp

theorem loop_last (c : ChatCfg) (d : Text) (reason : String) : ∀ (ds : List Text) (s : ChatSt),
    ∃ f, finishes (chatLoop c s (ds.map (fun d => (d, none)) ++ [(d, some reason)])) = [f] ∧
      (chatLoop c s (ds.map (fun d => (d, none)) ++ [(d, some reason)])).getLast? = some (.finish f) ∧
      (∀ tc, c.tc = some tc → toolItems (chatLoop c s (ds.map (fun d => (d, none)) ++ [(d, some reason)])) =
        ((tOuts c s.t ((rOuts c s.r (ds ++ [d])).map (·.2))).map (·.2)).flatten ++
          (tState c s.t ((rOuts c s.r (ds ++ [d])).map (·.2))).flush tc) ∧
      (c.tc = none → toolItems (chatLoop c s (ds.map (fun d => (d, none)) ++ [(d, some reason)])) = []) ∧
      f = if c.tc.isSome ∧ (s.tools = true ∨ toolItems (chatLoop c s (ds.map (fun d => (d, none)) ++ [(d, some reason)])) ≠ [])
        then "tool_calls" else normReason reason
  | [], s => by
    set p := phase1 c s.r d with hp
    set q := phase2 c s.t p.2.2 with hq
    obtain ⟨hE1, f, hE2, hE3, hE4⟩ := chatEnd_tools c q.1 (s.tools || !q.2.2.isEmpty) reason
    have hl : chatLoop c s ([].map (fun d => (d, none)) ++ [(d, some reason)]) =
        (if s.first then [.role] else []) ++ (if p.2.1 ≠ [] then [.reasoning p.2.1] else []) ++ q.2.2.map .tool ++
        (if q.2.1 ≠ [] then [.content q.2.1] else []) ++ chatEnd c q.1 (s.tools || !q.2.2.isEmpty) reason := by
      simp only [List.map_nil, List.nil_append, chatLoop, List.append_nil]
      rfl
    have ht : toolItems (chatLoop c s ([].map (fun d => (d, none)) ++ [(d, some reason)])) =
        q.2.2 ++ toolItems (chatEnd c q.1 (s.tools || !q.2.2.isEmpty) reason) := by
      rw [hl]
      simp only [toolItems_append, toolItems_tools]
      cases s.first <;> by_cases h1 : p.2.1 = [] <;> by_cases h2 : q.2.1 = [] <;> simp [h1, h2, toolItems]
    have hf : finishes (chatLoop c s ([].map (fun d => (d, none)) ++ [(d, some reason)])) = [f] := by
      rw [hl]
      simp only [finishes_append, finishes_tools, hE2]
      cases s.first <;> by_cases h1 : p.2.1 = [] <;> by_cases h2 : q.2.1 = [] <;> simp [h1, h2, finishes]
    refine ⟨f, hf, ?_, ?_, ?_, ?_⟩
    · rw [hl, List.getLast?_append, hE3]; rfl
    · intro tc htc
      rw [ht, hE1 tc htc]
      simp only [List.nil_append, rOuts, List.map_cons, List.map_nil, tOuts, tState, List.flatten_cons, List.flatten_nil,
        List.append_nil, ← hp, ← hq]
    · intro htc
      rw [ht]
      have : q.2.2 = [] := by rw [hq]; simp [phase2, htc]
      rw [this]
      simp only [chatEnd, htc]; rfl
    · rw [ht, hE4]
      cases hs : s.tools <;> cases hq' : q.2.2 <;> simp
  | e :: ds, s => by
    obtain ⟨f, h1, h2, h3, h4, h5⟩ := loop_last c d reason ds (s.chunk c e none).1
    obtain ⟨t1, t2⟩ := chunk_none_tools c s e
    obtain ⟨e1, e2, e3, e4⟩ := chunk_state c s e none
    have hl : chatLoop c s ((e :: ds).map (fun d => (d, none)) ++ [(d, some reason)]) = (s.chunk c e none).2 ++
        chatLoop c (s.chunk c e none).1 (ds.map (fun d => (d, none)) ++ [(d, some reason)]) := rfl
    refine ⟨f, ?_, ?_, ?_, ?_, ?_⟩
    · rw [hl, finishes_append, t2, h1]; rfl
    · rw [hl, List.getLast?_append, h2]; rfl
    · intro tc htc
      rw [hl, toolItems_append, t1, h3 tc htc, e1, e2]
      simp only [List.cons_append, rOuts, List.map_cons, tOuts, tState, List.flatten_cons, List.append_assoc]
    · intro htc
      rw [hl, toolItems_append, t1, h4 htc]
      simp [phase2, htc]
    · rw [hl, toolItems_append, t1, h5, e4]
      congr 1
      simp only [ne_eq, List.append_eq_nil_iff, eq_iff_iff]
      cases s.tools <;> cases (phase2 c s.t (phase1 c s.r e).2.2).2.2 <;> simp

/-- What a request that was not aborted yields: only the last result says that it ended (E L526-537). -/
structure Ended (rs : List Item) (reason : String) : Prop where
  ne : rs ≠ []
  last : (rs.getLast ne).reason none = some reason
  before : ∀ r ∈ rs.dropLast, r.reason none = none

theorem ended_split {rs : List Item} {reason : String} (h : Ended rs reason) :
    rs.map (fun r => (r.delta, r.reason none)) =
      (rs.dropLast.map Item.delta).map (fun d => (d, none)) ++ [((rs.getLast h.ne).delta, some reason)] := by
  conv_lhs => rw [← List.dropLast_append_getLast h.ne]
  rw [List.map_append, List.map_map]
  congr 1
  · apply List.map_congr_left
    intro r hr
    simp [h.before r hr]
  · simp [h.last]

theorem pieces_split {rs : List Item} (h : rs ≠ []) : rs.dropLast.map Item.delta ++ [(rs.getLast h).delta] = pieces rs := by
  unfold pieces
  conv_rhs => rw [← List.dropLast_append_getLast h]
  simp

/-- C97: the calls that the client gets, with a tool parser. -/
theorem C97_tools {c : ChatCfg} {tc : TCfg} (ht : c.tc = some tc) {rs : List Item} {reason : String} (h : Ended rs reason) :
    toolItems (chatStream c rs) = Parse.tItems tc (contents c (pieces rs)) := by
  obtain ⟨f, _, _, h3, _⟩ := loop_last c (rs.getLast h.ne).delta reason (rs.dropLast.map Item.delta) (.init c)
  unfold chatStream
  rw [ended_split h, h3 tc ht, ← (tOuts_run ht _).2, pieces_split h.ne]
  rfl

theorem loop_roles (c : ChatCfg) : ∀ (xs : List (Text × Option String)) (s : ChatSt),
    roles (chatLoop c s xs) = if s.first ∧ xs ≠ [] then 1 else 0
  | [], s => by simp [chatLoop, roles]
  | x :: xs, s => by
    obtain ⟨_, _, h3⟩ := chunk_text c s x.1 x.2
    obtain ⟨_, _, e3, _⟩ := chunk_state c s x.1 x.2
    rw [chatLoop, roles_append, h3, loop_roles c xs, e3]
    cases s.first <;> simp

theorem loop_head (c : ChatCfg) (x : Text × Option String) (xs : List (Text × Option String)) (s : ChatSt) (h : s.first = true) :
    (chatLoop c s (x :: xs)).head? = some .role := by
  simp [chatLoop, ChatSt.chunk, h]

/-- C97: the stream begins with the role, which comes once; it ends with the reason, which comes once; the reason is "tool_calls" if
the client was sent a call, and otherwise the reason of the model. -/
theorem C97_shape (c : ChatCfg) {rs : List Item} {reason : String} (h : Ended rs reason) :
    (chatStream c rs).head? = some .role ∧ roles (chatStream c rs) = 1 ∧
    ∃ f, (chatStream c rs).getLast? = some (.finish f) ∧ finishes (chatStream c rs) = [f] ∧
      f = if toolItems (chatStream c rs) ≠ [] then "tool_calls" else normReason reason := by
  obtain ⟨f, h1, h2, _, h4, h5⟩ := loop_last c (rs.getLast h.ne).delta reason (rs.dropLast.map Item.delta) (.init c)
  unfold chatStream
  refine ⟨?_, ?_, ?_⟩
  · obtain ⟨r, rs', rfl⟩ := List.exists_cons_of_ne_nil h.ne
    exact loop_head c _ _ _ rfl
  · rw [loop_roles]
    simp [ChatSt.init, h.ne]
  · rw [ended_split h]
    refine ⟨f, h2, h1, ?_⟩
    rw [h5]
    cases ht : c.tc with
    | none => rw [h4 ht]; simp
    | some tc => simp [ChatSt.init]

/-- Without a tool parser no calls are sent. -/
theorem C97_no_parser {c : ChatCfg} (ht : c.tc = none) {rs : List Item} {reason : String} (h : Ended rs reason) :
    toolItems (chatStream c rs) = [] := by
  obtain ⟨f, _, _, _, h4, _⟩ := loop_last c (rs.getLast h.ne).delta reason (rs.dropLast.map Item.delta) (.init c)
  unfold chatStream
  rw [ended_split h]
  exact h4 ht

/-- C97: an answer `a <think> r </think> k`, however it is cut into pieces: the client gets the reasoning `r` and the content
`a k`. -/
theorem C97_think_partial {c : ChatCfg} {rc : RCfg} (hr : c.rc = some rc) (ht : c.tc = none) (hc : rc.Ok) (hf : rc.force = false)
    (hs : rc.stream = true) {rs : List Item} {a b r k : Text} (h1 : First rc.start a b (pieces rs).flatten)
    (h2 : First rc.stop r k b) : reasonText (chatStream c rs) = r ∧ contentText (chatStream c rs) = a ++ k := by
  obtain ⟨e1, e2, _⟩ := Parse.C59_closed hc hf hs h1 h2
  rw [C97_reasoning, C97_content c ht, hr]
  exact ⟨e2, e1⟩

/-- C97: the same with a tool parser, if there are no calls in the content; a tail of the content that may be the beginning of a call
is kept back. -/
theorem C97_think_tools_partial {c : ChatCfg} {rc : RCfg} {tc : TCfg} (hr : c.rc = some rc) (ht : c.tc = some tc) (hc : rc.Ok)
    (hf : rc.force = false) (hs : rc.stream = true) (hb : tc.bot ≠ []) {rs : List Item} {reason : String} (he : Ended rs reason)
    {a b r k : Text} (h1 : First rc.start a b (pieces rs).flatten) (h2 : First rc.stop r k b) (hn : ¬ tc.bot <:+: a ++ k) :
    reasonText (chatStream c rs) = r ∧
    (∃ tail, contentText (chatStream c rs) ++ tail = a ++ k ∧ (tail ≠ [] → partialTag (a ++ k) tc.bot = true)) := by
  obtain ⟨e1, e2, _⟩ := Parse.C59_closed hc hf hs h1 h2
  obtain ⟨c1, c2⟩ := C97_content_tools c ht rs
  rw [hr] at c2
  rw [C97_reasoning, hr, c1]
  refine ⟨e2, ?_⟩
  have hfl : (contents c (pieces rs)).flatten = a ++ k := c2.trans e1
  have hP : ∀ T : Text, ¬ tc.bot <:+: T → Parts tc.bot tc.stop T T [] none := fun T h =>
    ⟨[], T, .start, fun _ => rfl, Or.inl ⟨rfl, h, by simp⟩⟩
  have hcut : Uncut tc (contents c (pieces rs)) := by
    intro ds1 d ds2 hds C bs o hp
    exfalso
    have hn' : ¬ tc.bot <:+: ds1.flatten := by
      intro h
      apply hn
      rw [← hfl, hds, List.flatten_append]
      exact h.trans (List.prefix_append _ _).isInfix
    have := (hP _ hn').unique hp
    cases this.2.2
  have hpt := hP _ (hfl ▸ hn)
  obtain ⟨g1, _, g3⟩ := Parse.C62_content_partial hb hcut hpt
  exact ⟨_, g1.trans hfl, fun h => hfl ▸ g3 h⟩

/-- C97: content and calls without a reasoning parser, if no end tag is cut in two: the content, all the calls of the text, each
with its name and arguments. -/
theorem C97_calls_partial {c : ChatCfg} {tc : TCfg} (hr : c.rc = none) (ht : c.tc = some tc) (hb : tc.bot ≠ [])
    {rs : List Item} {reason : String} (he : Ended rs reason) (hcut : Uncut tc (pieces rs)) {C : Text} {bs : List Text}
    {o : Option Text} (h : Parts tc.bot tc.stop (pieces rs).flatten C bs o) :
    (∃ tail, contentText (chatStream c rs) ++ tail = C ∧ (tail ≠ [] → partialTag C tc.bot = true)) ∧
    (∀ (j : Nat) (r : Text), bs[j]? = some r → ∀ (n : Option Text) (a : Text), tc.parse (strip tc.ws r) = some (n, a) →
      (∀ p, Seen tc (pieces rs) j p → Faith tc p n a) →
      Delivered j n a ((toolItems (chatStream c rs)).filter fun x => x.index = j)) := by
  have hk : contents c (pieces rs) = pieces rs := by
    simp [contents, rOuts_none hr, Function.comp_def]
  have h1 := (C97_content_tools c ht rs).1
  have h2 := C97_tools ht he
  rw [hk] at h1 h2
  obtain ⟨g1, _, g3⟩ := Parse.C62_content_partial hb hcut h
  refine ⟨⟨_, by rw [h1]; exact g1, g3⟩, fun j r hj n a hp hF => ?_⟩
  rw [h2]
  exact Parse.C62_call_partial hb hcut h hj hp hF

/-- C97, violated: what the reasoning parser keeps back at the end is never sent: an answer without tags that ends like the beginning
of a tag is cut short in the stream, but not in an answer that is not streamed. -/
theorem C97_tail_lost_violated {c : ChatCfg} {rc : RCfg} (hr : c.rc = some rc) (ht : c.tc = none) (hc : rc.Ok)
    (hf : rc.force = false) {rs : List Item} (hn : ¬ rc.start <:+: (pieces rs).flatten)
    (hp : partialTag (pieces rs).flatten rc.start = true) (ws : Char → Bool) {r : Item} (hrt : r.text = (pieces rs).flatten) :
    contentText (chatStream c rs) ≠ (pieces rs).flatten ∧ reasonText (chatStream c rs) = [] ∧
    (chatMessage c ws r).content = (pieces rs).flatten := by
  rw [C97_content c ht, C97_reasoning, hr]
  refine ⟨Parse.C59_tail_lost_violated hc hf hn hp, (Parse.C59_no_tag hc hf hn).1, ?_⟩
  unfold chatMessage
  rw [hr, ht]
  simp only
  rw [hrt, Parse.C60_no_tag ws hf hn]

/-- C97 (an answer that is not streamed): with both parsers, the reasoning is what stands between the tags, stripped; the content
and the calls are those of the text without it, and the reason is "tool_calls" exactly if there is a call. -/
theorem C97_message {c : ChatCfg} {rc : RCfg} {tc : TCfg} (hr : c.rc = some rc) (ht : c.tc = some tc) (hb : tc.bot ≠ [])
    (ws : Char → Bool) (i : Item) {a r k : Text} (h1 : First rc.start a (r ++ rc.stop ++ k) i.text)
    (h2 : First rc.stop (a ++ rc.start ++ r) k i.text) {C : Text} {bs : List Text} {o : Option Text}
    (h : Parts tc.bot tc.stop (strip ws (a ++ k)) C bs o) :
    let calls := Parse.number 0 ((bs ++ o.toList).filterMap fun b => tc.parse (strip tc.ws b))
    chatMessage c ws i = ⟨if strip ws r = [] then none else some (strip ws r),
      if bs = [] ∧ o = none then strip ws (a ++ k) else strip tc.ws C, calls,
      if calls = [] then (i.reason (some "stop")).map normReason else some "tool_calls"⟩ := by
  intro calls
  obtain ⟨rc', tc'⟩ := c
  simp only at hr ht
  subst hr ht
  have e := Parse.C60_closed ws h1 h2
  show (if Parse.find tc.bot (rc.whole ws i.text).2 ≠ none then
      (⟨(rc.whole ws i.text).1, (tc.whole (rc.whole ws i.text).2).1, (tc.whole (rc.whole ws i.text).2).2,
        if (tc.whole (rc.whole ws i.text).2).2 = [] then (i.reason (some "stop")).map normReason else some "tool_calls"⟩ : Message)
    else ⟨(rc.whole ws i.text).1, (rc.whole ws i.text).2, [], (i.reason (some "stop")).map normReason⟩) = _
  rw [e]
  unfold Parse.result
  simp only
  by_cases hf : Parse.find tc.bot (strip ws (a ++ k)) = none
  · rw [if_neg (fun e => e hf)]
    have hn : bs = [] ∧ o = none := by
      rcases h.cases with ⟨_, _, e2, e3⟩ | ⟨b, hf', _⟩ | ⟨_, b, _, _, _, _, _, hf', _⟩
      · exact ⟨e2, e3⟩
      · rw [Parse.find_of_first hf'] at hf; cases hf
      · rw [Parse.find_of_first hf'] at hf; cases hf
    obtain ⟨rfl, rfl⟩ := hn
    simp [calls, Parse.number]
  · rw [if_pos hf, Parse.C61_whole hb h]

/-- Non-vacuity of `C97_message`: reasoning with a call in it, which is not made, and a call after it, which is. -/
example : chatMessage ⟨some (Parse.think false true), some (Parse.fmt fun b => some (some b, []))⟩ (· = ' ')
    (.res "<think>no<tool_call>f</tool_call></think>ok<tool_call>g</tool_call>".toList [] (some "eos") 3 9) =
    ⟨some "no<tool_call>f</tool_call>".toList, "ok".toList, [⟨some "g".toList, [], 0⟩], some "tool_calls"⟩ := by decide +kernel

/-- The configuration of the examples. -/
def thinkCfg : ChatCfg := ⟨some (Parse.think false true), none⟩

/-- Non-vacuity: "why" is the reasoning, "1" the content, with tags cut in two. -/
def thinkRs : List Item := [.res [] "<thi".toList none 3 1, .res [] "nk>why</th".toList none 3 2, .res [] "ink>1".toList (some "eos") 3 3]

example : chatStream thinkCfg thinkRs = [.role, .reasoning "why".toList, .content "1".toList, .finish "stop"] := by decide +kernel

example : Ended thinkRs "eos" := ⟨by decide, rfl, by decide +kernel⟩

/-- Non-vacuity of `C97_tail_lost_violated`: "is 1 <". -/
example : chatStream thinkCfg [.res "is 1 <".toList "is 1 <".toList (some "eos") 3 4] = [.role, .finish "stop"] ∧
    chatMessage thinkCfg (· = ' ') (.res "is 1 <".toList "is 1 <".toList (some "eos") 3 4) = ⟨none, "is 1 <".toList, [], some "stop"⟩ := by
  constructor <;> decide +kernel

/-- C97, violated: a chat that is aborted or times out ends without a reason: neither the stream nor the answer say that it
failed. -/
theorem C97_failure_violated (c : ChatCfg) (rs : List Item) (h : ∀ r ∈ rs, r.reason none = none) (hne : rs ≠ []) :
    chatStream c (rs ++ [.err]) = chatStream c rs ∧ finishes (chatStream c (rs ++ [.err])) = [] ∧
    ∀ ws, (chatMessage ⟨none, none⟩ ws .err) = ⟨none, [], [], some "stop"⟩ := by
  have key : ∀ (xs : List (Text × Option String)) (s : ChatSt), (s.first = false ∨ xs ≠ []) → (∀ x ∈ xs, x.2 = none) →
      chatLoop c s (xs ++ [([], none)]) = chatLoop c s xs ∧ finishes (chatLoop c s xs) = [] := by
    intro xs
    induction xs with
    | nil =>
      intro s hs _
      have hs : s.first = false := by simpa using hs
      refine ⟨?_, rfl⟩
      simp only [List.nil_append, chatLoop, List.append_nil]
      have p1 : ∀ s, phase1 c s [] = (s, [], []) := by
        intro s; unfold phase1; cases c.rc <;> simp
      have p2 : ∀ s, phase2 c s [] = (s, [], []) := by
        intro s; unfold phase2; cases c.tc <;> simp
      simp [ChatSt.chunk, hs, p1, p2, chatFin]
    | cons x xs ih =>
      intro s _ hx
      obtain ⟨i1, i2⟩ := ih (s.chunk c x.1 x.2).1 (Or.inl rfl) (fun y hy => hx y (List.mem_cons_of_mem _ hy))
      have hx2 : x.2 = none := hx x List.mem_cons_self
      refine ⟨?_, ?_⟩
      · rw [List.cons_append, chatLoop, i1, chatLoop]
      · rw [chatLoop, finishes_append, i2, hx2, (chunk_none_tools c s x.1).2]; rfl
  have hk := key (rs.map fun r => (r.delta, r.reason none)) (.init c) (Or.inr (by simpa using hne)) (by
    intro x hx
    obtain ⟨r, hr, rfl⟩ := List.mem_map.1 hx
    exact h r hr)
  have e : chatStream c (rs ++ [.err]) = chatStream c rs := by
    unfold chatStream
    rw [List.map_append]
    exact hk.1
  refine ⟨e, ?_, fun ws => rfl⟩
  rw [e]
  exact hk.2

end Verif.Serve
