import Verif.Serve.Http
import Mathlib.Algebra.BigOperators.Group.List.Basic

/-!
# Choices, usage and failures of `/v1/completions` (C93, C94, C95)
-/

namespace Verif.Serve

open Parse (Text)

/-! ### C93: choice `i` answers prompt `i` -/

/-- What the client should be told about the result of one prompt: its text and the reason for its end. -/
def Item.answer (r : Item) : Text × Option String := (r.text, (r.reason (some "stop")).map normReason)

theorem choices_get (rs : List Item) (i : Nat) :
    (choices rs)[i]? = rs[i]?.map fun r => ⟨i, r.answer.1, r.answer.2⟩ := by
  simp only [choices, List.getElem?_map, List.getElem?_zipIdx, Option.map_map, Nat.zero_add]
  rfl

theorem choices_answers (rs : List Item) : (choices rs).map (fun c => (c.text, c.finish)) = rs.map Item.answer := by
  apply List.ext_getElem?
  intro i
  rw [List.getElem?_map, choices_get, List.getElem?_map, Option.map_map]
  rfl

theorem choices_index (rs : List Item) : (choices rs).map Choice.index = List.range rs.length := by
  apply List.ext_getElem?
  intro i
  rw [List.getElem?_map, choices_get, Option.map_map]
  by_cases h : i < rs.length
  · rw [List.getElem?_eq_getElem h, List.getElem?_range h]; rfl
  · rw [List.getElem?_eq_none (by omega), List.getElem?_eq_none (by simp; omega)]; rfl

/-- C93: if the prompts of a batch end in the order in which they were given, choice `i` is numbered `i` and answers prompt `i`. -/
theorem C93_in_order_partial {outs : List Item} {i : Nat} {r : Item} (h : outs[i]? = some r) :
    (choices outs)[i]? = some ⟨i, r.text, (r.reason (some "stop")).map normReason⟩ := by
  rw [choices_get, h]; rfl

/-- C93: in whatever order the prompts end, every answer is there, once, and the choices are numbered 0, 1, 2, … -/
theorem C93_each_once_partial {outs rs : List Item} (h : rs.Perm outs) :
    ((choices rs).map fun c => (c.text, c.finish)).Perm (outs.map Item.answer) ∧
    (choices rs).map Choice.index = List.range outs.length := by
  rw [choices_answers, choices_index, h.length_eq]
  exact ⟨h.map _, rfl⟩

/-- Results for the examples: number 0 is "A", number 1 is "B". -/
def look2 : Nat → Item
  | 0 => .res ['A'] ['A'] (some "eos") 1 1
  | _ => .res ['B'] ['B'] (some "eos") 1 1

/-- C93, violated: two prompts, the second of which ends first: choice 0 is the answer to prompt 1, and choice 1 that to prompt
0. -/
theorem C93_order_violated (ps : Py → String) : ∃ (r : Req) (es : List Ev) (ids : List Nat) (f : Front),
    Front.init.add ps r = (f, .ok ids) ∧ r.text = .list [.str "hi", .str "yo"] ∧ r.rid = .list [.str "a", .str "b"] ∧
    resultsFor "a" es = [⟨.str "a", true, 0⟩] ∧ resultsFor "b" es = [⟨.str "b", true, 1⟩] ∧
    choices (yielded ps look2 ids f es) = [⟨0, ['B'], some "stop"⟩, ⟨1, ['A'], some "stop"⟩] := by
  refine ⟨{ rid := .list [.str "a", .str "b"], text := .list [.str "hi", .str "yo"] },
    [.recv ⟨.str "b", true, 1⟩, .recv ⟨.str "a", true, 0⟩], [0, 1], _, rfl, rfl, rfl, by simp [resultsFor],
    by simp [resultsFor], rfl⟩

/-- Non-vacuity of the partial theorems: the same, ended in order. -/
example : choices [look2 0, look2 1] = [⟨0, ['A'], some "stop"⟩, ⟨1, ['B'], some "stop"⟩] := by decide +kernel

/-- The text a client has of choice `i` after a stream. -/
def textOf (i : Nat) (es : List Sse) : Text :=
  es.flatMap fun e => match e with
    | .chunk c => if c.index = i then c.text else []
    | _ => []

/-- The reasons for the end of choice `i` in a stream. -/
def endsOf (i : Nat) (es : List Sse) : List String :=
  es.filterMap fun e => match e with
    | .chunk c => if c.index = i then c.finish else none
    | _ => none

theorem textOf_sse (r : Item) : textOf 0 (sseOf r) = r.delta := by
  unfold sseOf textOf
  split
  · next h => simp [h.1]
  · simp

theorem endsOf_sse (r : Item) : endsOf 0 (sseOf r) = ((r.reason none).map normReason).toList := by
  unfold sseOf endsOf
  split
  · next h => simp [h.2]
  · cases (r.reason none).map normReason <;> simp

theorem textOf_append (i : Nat) (a b : List Sse) : textOf i (a ++ b) = textOf i a ++ textOf i b := by simp [textOf]
theorem endsOf_append (i : Nat) (a b : List Sse) : endsOf i (a ++ b) = endsOf i a ++ endsOf i b := by simp [endsOf]

theorem textOf_all : ∀ rs : List Item, textOf 0 (rs.flatMap sseOf) = rs.flatMap Item.delta
  | [] => rfl
  | r :: rs => by rw [List.flatMap_cons, textOf_append, textOf_sse, textOf_all rs, List.flatMap_cons]

theorem endsOf_all : ∀ rs : List Item, endsOf 0 (rs.flatMap sseOf) = rs.filterMap fun r => (r.reason none).map normReason
  | [] => rfl
  | r :: rs => by
    rw [List.flatMap_cons, endsOf_append, endsOf_sse, endsOf_all rs, List.filterMap_cons]
    cases (r.reason none).map normReason <;> rfl

/-- C93: the stream of one prompt delivers all the pieces, in order, as choice 0, and the reasons for the end, and then says that it is
over. -/
theorem C93_stream_partial (incl raised : Bool) (rs : List Item) :
    textOf 0 (completionStream incl rs raised) = rs.flatMap Item.delta ∧
    endsOf 0 (completionStream incl rs raised) = rs.filterMap (fun r => (r.reason none).map normReason) ∧
    (completionStream incl rs raised).getLast? = some .done := by
  refine ⟨?_, ?_, by simp [completionStream]⟩
  · simp only [completionStream, textOf_append, textOf_all]
    cases raised <;> cases incl <;> simp [textOf]
  · simp only [completionStream, endsOf_append, endsOf_all]
    cases raised <;> cases incl <;> simp [endsOf]

/-- Non-vacuity: an answer in two pieces. -/
example : completionStream false [.res ['a'] ['a'] none 1 1, .res ['a', 'b'] ['b'] (some "eos") 1 2] false =
    [.chunk ⟨0, ['a'], none⟩, .chunk ⟨0, ['b'], some "stop"⟩, .done] := by decide +kernel

/-- C93, violated: in the stream of a batch everything is choice 0; the client gets the pieces of all the prompts as one text. -/
theorem C93_stream_index_violated (incl raised : Bool) (rs : List Item) {c : Choice}
    (h : .chunk c ∈ completionStream incl rs raised) : c.index = 0 := by
  simp only [completionStream, List.mem_append, List.mem_flatMap] at h
  rcases h with ((⟨r, _, h⟩ | h) | h) | h
  · unfold sseOf at h
    split at h
    · cases h
    · simp only [List.mem_singleton, Sse.chunk.injEq] at h; rw [h]
  · cases raised <;> simp at h
  · cases incl <;> simp at h
  · simp at h

/-- The pieces of prompt `i` in a merged stream. -/
def promptText (i : Nat) (xs : List (Nat × Item)) : Text := (xs.filter (fun x => x.1 = i)).flatMap fun x => x.2.delta

/-- C93, violated: the client cannot tell the answers apart: there are two batches with different answers and the same events. -/
theorem C93_stream_batch_violated : ∃ xs ys : List (Nat × Item), promptText 0 xs = ['A'] ∧ promptText 1 xs = ['B'] ∧
    promptText 0 ys = ['B'] ∧ promptText 1 ys = ['A'] ∧
    ∀ incl raised, completionStream incl (xs.map (·.2)) raised = completionStream incl (ys.map (·.2)) raised :=
  ⟨[(0, look2 0), (1, look2 1)], [(1, look2 0), (0, look2 1)], by decide +kernel, by decide +kernel, by decide +kernel,
    by decide +kernel, fun _ _ => rfl⟩

/-! ### C94: usage -/

theorem usage_fold : ∀ (rs : List Item) (u : Nat × Nat),
    rs.foldl (fun u r => (u.1 + (r.usage (0, 0)).1, u.2 + (r.usage (0, 0)).2)) u =
      (u.1 + (rs.map fun r => (r.usage (0, 0)).1).sum, u.2 + (rs.map fun r => (r.usage (0, 0)).2).sum)
  | [], u => by simp
  | r :: rs, u => by
    rw [List.foldl_cons, usage_fold rs]
    simp only [List.map_cons, List.sum_cons, Prod.mk.injEq]
    constructor <;> omega

/-- C94: the usage of an answer that is not streamed is the sum over its prompts, in whatever order they end. -/
theorem C94_total {outs rs : List Item} (h : rs.Perm outs) :
    usage rs = ((outs.map fun r => (r.usage (0, 0)).1).sum, (outs.map fun r => (r.usage (0, 0)).2).sum) := by
  unfold usage
  rw [usage_fold, (h.map fun r => (r.usage (0, 0)).1).sum_eq, (h.map fun r => (r.usage (0, 0)).2).sum_eq]
  simp

/-- Non-vacuity. -/
example : usage [.res [] [] (some "eos") 5 2, .res [] [] (some "length") 3 4] = (8, 6) := by decide +kernel

/-- The usage a stream reports. -/
def usageOf (es : List Sse) : List (Nat × Nat) :=
  es.filterMap fun e => match e with
    | .usage p c => some (p, c)
    | _ => none

theorem usageOf_sse (r : Item) : usageOf (sseOf r) = [] := by
  unfold sseOf usageOf; split <;> rfl

theorem usageOf_all : ∀ rs : List Item, usageOf (rs.flatMap sseOf) = []
  | [] => rfl
  | r :: rs => by
    have : usageOf (sseOf r ++ rs.flatMap sseOf) = usageOf (sseOf r) ++ usageOf (rs.flatMap sseOf) := by simp [usageOf]
    rw [List.flatMap_cons, this, usageOf_sse, usageOf_all rs]; rfl

/-- C94: a stream with `include_usage` reports once, at its end, the numbers of the last result with numbers; a stream without it
reports nothing. -/
theorem C94_stream_partial (incl raised : Bool) {rs post : List Item} {t d : Text} {fin : Option String} {p c : Nat}
    (hpost : ∀ x ∈ post, x = .err) :
    usageOf (completionStream incl (rs ++ .res t d fin p c :: post) raised) = if incl then [(p, c)] else [] := by
  have hl : lastUsage (rs ++ .res t d fin p c :: post) = (p, c) := by
    unfold lastUsage
    rw [List.foldl_append, List.foldl_cons]
    have : ∀ (l : List Item) (u : Nat × Nat), (∀ x ∈ l, x = .err) → l.foldl (fun u r => r.usage u) u = u := by
      intro l
      induction l with
      | nil => intro u _; rfl
      | cons a l ih =>
        intro u h
        rw [List.foldl_cons, h a List.mem_cons_self]
        exact ih _ (fun x hx => h x (List.mem_cons_of_mem _ hx))
    rw [this post _ hpost]; rfl
  have happ : ∀ a b : List Sse, usageOf (a ++ b) = usageOf a ++ usageOf b := by intro a b; simp [usageOf]
  unfold completionStream
  rw [hl, happ, happ, happ, usageOf_all]
  cases raised <;> cases incl <;> rfl

/-- C94, violated: the same holds for a batch: only the numbers of the result that came last are reported, whatever the other
prompts used. -/
theorem C94_stream_batch_violated : ∃ rs : List Item, usage rs = (8, 6) ∧ usageOf (completionStream true rs false) = [(3, 4)] :=
  ⟨[.res ['a'] ['a'] (some "eos") 5 2, .res ['b'] ['b'] (some "length") 3 4], by decide +kernel, by decide +kernel⟩

/-! ### C95: a request that failed -/

/-- C95: the reason given for the end of a generated answer: "length" if the limit was reached, "stop" for an end or stop
token. -/
theorem C95_reason_partial (t d : Text) (p c : Nat) :
    (Item.res t d (some "length") p c).answer.2 = some "length" ∧ (Item.res t d (some "eos") p c).answer.2 = some "stop" ∧
    (Item.res t d (some "stop") p c).answer.2 = some "stop" ∧
    ∀ r, normReason r = "length" ↔ r = "length" := by
  refine ⟨rfl, rfl, rfl, fun r => ?_⟩
  unfold normReason
  split <;> simp_all

/-- C95, violated: a prompt whose request was aborted or timed out is reported as an empty answer that ended with "stop", like one
that was answered in this way. -/
theorem C95_reported_done_violated (pre post : List Item) (p c : Nat) :
    choices (pre ++ .err :: post) = choices (pre ++ .res [] [] (some "eos") p c :: post) ∧
    (choices (pre ++ .err :: post))[pre.length]? = some ⟨pre.length, [], some "stop"⟩ := by
  refine ⟨?_, ?_⟩
  · apply List.ext_getElem?
    intro i
    rw [choices_get, choices_get]
    rcases lt_trichotomy i pre.length with h | h | h
    · rw [List.getElem?_append_left h, List.getElem?_append_left h]
    · subst h; simp [Item.answer, Item.text, Item.reason, normReason]
    · rw [List.getElem?_append_right h.le, List.getElem?_append_right h.le]
      obtain ⟨k, hk⟩ : ∃ k, i - pre.length = k + 1 := ⟨i - pre.length - 1, by omega⟩
      rw [hk]; rfl
  · rw [choices_get]; simp [Item.answer, Item.text, Item.reason, normReason]

/-- C95, violated: an abort that the scheduler reports is "stop", too. -/
theorem C95_abort_stop_violated (t d : Text) (p c : Nat) :
    (Item.res t d (some "abort") p c).answer.2 = some "stop" := rfl

/-- C95, violated: in a stream the failure leaves no trace at all: the events are those of what came before. If that had not ended,
the stream says neither that it ended nor that it failed, only that it is over. -/
theorem C95_stream_silent_violated (incl : Bool) (rs : List Item) :
    completionStream incl (rs ++ [.err]) false = completionStream incl rs false ∧
    ((∀ r ∈ rs, r.reason none = none) →
      endsOf 0 (completionStream incl (rs ++ [.err]) false) = [] ∧ .error ∉ completionStream incl (rs ++ [.err]) false) := by
  have h1 : completionStream incl (rs ++ [.err]) false = completionStream incl rs false := by
    unfold completionStream lastUsage
    simp only [List.flatMap_append, List.foldl_append, List.foldl_cons, List.foldl_nil]
    simp [sseOf, Item.delta, Item.reason, Item.usage]
  refine ⟨h1, fun h => ?_⟩
  rw [h1, (C93_stream_partial incl false rs).2.1]
  refine ⟨?_, ?_⟩
  · rw [List.filterMap_eq_nil_iff]; intro r hr; rw [h r hr]; rfl
  · simp only [completionStream, List.mem_append, List.mem_flatMap, Bool.false_eq_true, if_false]
    rintro (((⟨r, _, h⟩ | h) | h) | h)
    · unfold sseOf at h; split at h <;> simp at h
    · simp at h
    · cases incl <;> simp at h
    · simp at h

/-- Non-vacuity: from the events of the front end to the answer: a request that waited for half an hour. -/
example (ps : Py → String) : let f := (Front.init.add ps { rid := .str "a", text := .str "hi" }).1
    choices (yielded ps look2 [0] f [.stale "a"]) = [⟨0, [], some "stop"⟩] := rfl

end Verif.Serve
