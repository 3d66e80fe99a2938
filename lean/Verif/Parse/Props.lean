import Verif.Parse.ReasonProps
import Verif.Parse.Stream
namespace Verif.Parse

/-! ### C61: tool calls in a complete answer -/

/-- C61: every text has exactly one decomposition into content, complete calls and an unfinished call. -/
theorem C61_parts_unique {bot : Text} (hb : bot ≠ []) (stop T : Text) : ∃ C bs o, Parts bot stop T C bs o ∧
    ∀ C' bs' o', Parts bot stop T C' bs' o' → C' = C ∧ bs' = bs ∧ o' = o := by
  obtain ⟨C, bs, o, h⟩ := Parts.exists bot stop hb T.length T (le_refl _)
  refine ⟨C, bs, o, h, fun C' bs' o' h' => ?_⟩
  obtain ⟨e1, e2, e3⟩ := h.unique h'
  exact ⟨e1.symm, e2.symm, e3.symm⟩

/-- C61: the one-shot parser returns the content (stripped, if there is a call at all) and all the calls with a readable body, in
order, numbered from 0. -/
theorem C61_whole {c : TCfg} (hb : c.bot ≠ []) {T C : Text} {bs : List Text} {o : Option Text} (h : Parts c.bot c.stop T C bs o) :
    c.whole T = (if bs = [] ∧ o = none then T else strip c.ws C, number 0 ((bs ++ o.toList).filterMap fun b => c.parse (strip c.ws b))) := by
  unfold TCfg.whole
  rw [scan_spec c hb _ T 0 C bs o (Nat.lt_succ_self _) h]
  rcases h.cases with ⟨hn, rfl, rfl, rfl⟩ | ⟨b, hf, hn, rfl, rfl⟩ | ⟨a, b, r, k, C', bs', hs, hf, hg, hp, rfl, rfl⟩
  · rw [if_pos (find_eq_none hn)]; simp [number]
  · rw [find_of_first hf, if_neg (by simp), if_neg (by simp)]
  · rw [find_of_first hf, if_neg (by simp), if_neg (by simp)]

/-- The format `qwen3_coder`/`qwen25` of T L82-94, with call bodies read by `parse`. -/
def fmt (parse : Text → Option (Option Text × Text)) : TCfg :=
  ⟨"<tool_call>".toList, "</tool_call>".toList, (· = ' '), parse, jsonName (· = ' '), jsonArgs (· = ' ')⟩

/-- Non-vacuity: two calls, one of them unfinished; bodies are read as names. -/
example : (fmt (fun b => some (some b, []))).whole "a<tool_call>f</tool_call>b<tool_call>g".toList =
    ("ab".toList, [⟨some "f".toList, [], 0⟩, ⟨some "g".toList, [], 1⟩]) := by decide +kernel

example : Parts "<tool_call>".toList "</tool_call>".toList "a<tool_call>f</tool_call>b<tool_call>g".toList "ab".toList ["f".toList] (some "g".toList) := by
  refine ⟨"a".toList, "b<tool_call>g".toList, ?_, fun h => by simp at h, Or.inr ⟨"b".toList, "g".toList, ?_, Or.inr ?_, rfl, rfl⟩⟩
  · refine Pre.call (C := []) (bs := []) (b := "f</tool_call>b<tool_call>g".toList) .start ?_ ?_
    · exact find_some (i := 1) (by decide +kernel)
    · exact find_some (i := 1) (by decide +kernel)
  · exact find_some (i := 1) (by decide +kernel)
  · exact find_none (by decide +kernel)

/-! ### C62: tool calls in a stream -/

/-- What the client gets for the chunks `ds`: content, items (with those of `flush` at the end), and the content that is held. -/
def tContent (c : TCfg) (ds : List Text) : Text := (TSt.run c ds).2.1
def tItems (c : TCfg) (ds : List Text) : List Item := (TSt.run c ds).2.2 ++ (TSt.run c ds).1.flush c
def tHeld (c : TCfg) (ds : List Text) : Text := if (TSt.run c ds).1.inCall then [] else (TSt.run c ds).1.buf

theorem sinv_parts {c : TCfg} {P : Nat → Text → Prop} {T : Text} {s : TSt} {C0 : Text} {its : List Item} (h : SInv c P T s C0 its) :
    ∃ C bs o gs cur, Parts c.bot c.stop T C bs o ∧ s.idx = bs.length ∧ GroupsOK c P bs gs ∧ its = gs.flatten ++ cur ∧
      ((o = none ∧ s.inCall = false ∧ cur = [] ∧ C0 ++ s.buf = C ∧ s.buf.length < c.bot.length ∧ (s.buf ≠ [] → partialTag C c.bot = true)) ∨
       (o = some s.callBuf ∧ s.inCall = true ∧ CurOK c P s cur ∧ C0 = C)) := by
  cases h with
  | @out C0 bs rest e gs h1 h2 h3 h4 h5 h6 h7 h8 h9 h10 =>
    have hn : ¬ c.bot <:+: rest := by rw [← h4]; exact h5.none h6
    refine ⟨C0 ++ rest, bs, none, gs, [], ⟨C0, rest, h1, h2, Or.inl ⟨rfl, hn, rfl⟩⟩, h9, h10, by simp, Or.inl ⟨rfl, h3, rfl, ?_, h7, ?_⟩⟩
    · rw [List.append_assoc, h4]
    · intro hne
      obtain ⟨i, i1, i2, i3⟩ := partial_iff.1 (h8 hne)
      exact partial_iff.2 ⟨i, i1, i2, i3.trans (List.suffix_append _ _)⟩
  | @call C0 bs rest a b gs cur h1 h2 h3 h4 h5 h6 h7 h8 h9 h10 =>
    exact ⟨C0 ++ a, bs, some b, gs, cur, ⟨C0, rest, h1, h2, Or.inr ⟨a, b, h4, h7, rfl, rfl⟩⟩, h8, h9, rfl, Or.inr ⟨by rw [h5], h3, h10, rfl⟩⟩

/-- C62: the content of the stream is the content of the text, except what is held: at most the beginning of a tag. -/
theorem C62_content_partial {c : TCfg} (hb : c.bot ≠ []) {ds : List Text} (hcut : Uncut c ds) {C : Text} {bs : List Text} {o : Option Text}
    (h : Parts c.bot c.stop ds.flatten C bs o) : tContent c ds ++ tHeld c ds = C ∧ (tHeld c ds).length < c.bot.length ∧
      (tHeld c ds ≠ [] → partialTag C c.bot = true) := by
  obtain ⟨C', bs', o', gs, cur, hp, _, _, _, hcase⟩ := sinv_parts (sinv_run hb (P := fun _ _ => True) ds hcut (fun _ _ _ => trivial))
  obtain ⟨rfl, rfl, rfl⟩ := h.unique hp
  unfold tContent tHeld
  rcases hcase with ⟨_, h2, _, h4, h5, h6⟩ | ⟨_, h2, _, h4⟩
  · rw [h2]
    simp only [Bool.false_eq_true, if_false]
    exact ⟨h4, h5, h6⟩
  · rw [h2]
    simp only [if_true, List.append_nil]
    exact ⟨h4, List.length_pos_of_ne_nil hb, fun h => absurd rfl h⟩

theorem mem_groups {c : TCfg} {P : Nat → Text → Prop} {bs : List Text} {gs : List (List Item)} (h : GroupsOK c P bs gs) : ∀ j g, gs[j]? = some g → ∀ x ∈ g, x.index = 0 + j := by
  intro j g hg x hx
  have hj : j < bs.length := by
    rw [← h.1]
    by_contra hge
    rw [List.getElem?_eq_none (by omega)] at hg
    cases hg
  have := (h.2 j bs[j] g (List.getElem?_eq_getElem hj) hg).1 x hx
  omega

/-- C62: a complete call is delivered under its number: first the name, once, and pieces of the arguments that add up to the
arguments; provided no end tag is cut by a chunk boundary, and what is read from the parts of the call that arrived with the chunks
fits to the call. -/
theorem C62_call_partial {c : TCfg} (hb : c.bot ≠ []) {ds : List Text} (hcut : Uncut c ds) {C : Text} {bs : List Text} {o : Option Text}
    (h : Parts c.bot c.stop ds.flatten C bs o) {j : Nat} {r : Text} (hr : bs[j]? = some r) {n : Option Text} {a : Text}
    (hp : c.parse (strip c.ws r) = some (n, a)) (hF : ∀ p, Seen c ds j p → Faith c p n a) :
    Delivered j n a ((tItems c ds).filter (fun x => x.index = j)) := by
  obtain ⟨C', bs', o', gs, cur, hpt, hidx, hg, hits, hcase⟩ := sinv_parts (sinv_run hb (P := Seen c ds) ds hcut (fun _ _ h => h))
  obtain ⟨rfl, rfl, rfl⟩ := h.unique hpt
  have hj : j < bs.length := by
    by_contra hge
    rw [List.getElem?_eq_none (by omega)] at hr
    cases hr
  have hgj : gs[j]? = some (gs[j]'(by rw [hg.1]; exact hj)) := List.getElem?_eq_getElem _
  have hrest : ∀ x ∈ cur ++ (TSt.run c ds).1.flush c, x.index = bs.length := by
    rcases hcase with ⟨_, h2, rfl, _⟩ | ⟨_, h2, h3, _⟩
    · intro x hx
      unfold TSt.flush at hx
      rw [h2] at hx
      simp at hx
    · intro x hx
      rw [← hidx]
      rcases List.mem_append.1 hx with hx | hx
      · exact h3.1 x hx
      · unfold TSt.flush at hx
        split at hx
        · exact (finalize_ok h3).1 x (List.mem_append_right _ hx)
        · cases hx
  have : (tItems c ds).filter (fun x => x.index = j) = gs[j]'(by rw [hg.1]; exact hj) := by
    unfold tItems
    rw [hits, List.append_assoc, List.filter_append]
    have e1 := filter_groups gs 0 (mem_groups hg) j
    rw [Nat.zero_add, hgj] at e1
    have e2 : (cur ++ (TSt.run c ds).1.flush c).filter (fun x => decide (x.index = j)) = [] := by
      rw [List.filter_eq_nil_iff]
      intro x hx
      have := hrest x hx
      simp only [decide_eq_true_eq]
      omega
    rw [e1, e2]
    simp
  rw [this]
  exact (hg.2 j r _ hr hgj).2 n a hp hF

/-- C62: a call without end tag at the end of the answer is delivered by `flush`. -/
theorem C62_last_call_partial {c : TCfg} (hb : c.bot ≠ []) {ds : List Text} (hcut : Uncut c ds) {C : Text} {bs : List Text} {r : Text}
    (h : Parts c.bot c.stop ds.flatten C bs (some r)) (hne : strip c.ws r ≠ []) {n : Option Text} {a : Text}
    (hp : c.parse (strip c.ws r) = some (n, a)) (hF : ∀ p, Seen c ds bs.length p → Faith c p n a) :
    Delivered bs.length n a ((tItems c ds).filter (fun x => x.index = bs.length)) := by
  obtain ⟨C', bs', o', gs, cur, hpt, hidx, hg, hits, hcase⟩ := sinv_parts (sinv_run hb (P := Seen c ds) ds hcut (fun _ _ h => h))
  obtain ⟨rfl, rfl, rfl⟩ := h.unique hpt
  rcases hcase with ⟨h1, _⟩ | ⟨h1, h2, h3, _⟩
  · cases h1
  have hr : r = (TSt.run c ds).1.callBuf := by simpa using h1
  have hfl : (TSt.run c ds).1.flush c = (TSt.run c ds).1.finalize c := by
    unfold TSt.flush
    rw [if_pos ⟨h2, by rw [← hr]; exact hne⟩]
  have hok := finalize_ok h3
  have : (tItems c ds).filter (fun x => x.index = bs.length) = cur ++ (TSt.run c ds).1.finalize c := by
    unfold tItems
    rw [hits, hfl, List.append_assoc, List.filter_append]
    have e1 : gs.flatten.filter (fun x => decide (x.index = bs.length)) = [] := by
      rw [List.filter_eq_nil_iff]
      intro x hx
      obtain ⟨g, hg', hx'⟩ := List.mem_flatten.1 hx
      obtain ⟨j, hj⟩ := List.getElem?_of_mem hg'
      have h4 := mem_groups hg j g hj x hx'
      have h5 : j < gs.length := by
        by_contra hge
        rw [List.getElem?_eq_none (by omega)] at hj
        cases hj
      rw [hg.1] at h5
      simp only [decide_eq_true_eq]
      omega
    have e2 : (cur ++ (TSt.run c ds).1.finalize c).filter (fun x => decide (x.index = bs.length)) = cur ++ (TSt.run c ds).1.finalize c := by
      refine List.filter_eq_self.2 (fun x hx => ?_)
      rw [hok.1 x hx, hidx]
      simp
    rw [e1, e2]
    rfl
  rw [this]
  rw [hidx, ← hr] at hok
  exact hok.2 n a hp hF

/-- C62: no other calls are reported. -/
theorem C62_no_other_partial {c : TCfg} (hb : c.bot ≠ []) {ds : List Text} (hcut : Uncut c ds) {C : Text} {bs : List Text} {o : Option Text}
    (h : Parts c.bot c.stop ds.flatten C bs o) {x : Item} (hx : x ∈ tItems c ds) : x.index < (bs ++ o.toList).length := by
  obtain ⟨C', bs', o', gs, cur, hpt, hidx, hg, hits, hcase⟩ := sinv_parts (sinv_run hb (P := Seen c ds) ds hcut (fun _ _ h => h))
  obtain ⟨rfl, rfl, rfl⟩ := h.unique hpt
  unfold tItems at hx
  rw [hits, List.append_assoc] at hx
  rcases List.mem_append.1 hx with hx | hx
  · obtain ⟨g, hg', hx'⟩ := List.mem_flatten.1 hx
    obtain ⟨j, hj⟩ := List.getElem?_of_mem hg'
    have h4 := mem_groups hg j g hj x hx'
    have h5 : j < gs.length := by
      by_contra hge
      rw [List.getElem?_eq_none (by omega)] at hj
      cases hj
    rw [hg.1] at h5
    simp only [List.length_append]
    omega
  · rcases hcase with ⟨_, h2, rfl, _⟩ | ⟨h1, h2, h3, _⟩
    · unfold TSt.flush at hx
      rw [h2] at hx
      simp at hx
    · have : x.index = bs.length := by
        rw [← hidx]
        rcases List.mem_append.1 hx with hx | hx
        · exact h3.1 x hx
        · unfold TSt.flush at hx
          split at hx
          · exact (finalize_ok h3).1 x (List.mem_append_right _ hx)
          · cases hx
      rw [h1, this]
      simp

/-- C62: an answer that arrives in one piece: all complete calls are delivered as they are. -/
theorem C62_one_chunk {c : TCfg} (hb : c.bot ≠ []) {T C : Text} {bs : List Text} {o : Option Text} (h : Parts c.bot c.stop T C bs o) {j : Nat} {r : Text}
    (hr : bs[j]? = some r) {n : Option Text} {a : Text} (hp : c.parse (strip c.ws r) = some (n, a)) :
    Delivered j n a ((tItems c [T]).filter (fun x => x.index = j)) := by
  have h0 : ∀ C bs p, ¬ Parts c.bot c.stop [] C bs (some p) := by
    intro C bs p hp
    rcases hp.cases with ⟨_, _, _, h4⟩ | ⟨b, hf, _⟩ | ⟨a, b, r, k, C', bs', hs, hf, _⟩
    · cases h4
    · exact hb (List.infix_nil.1 hf.infix)
    · exact hb (List.infix_nil.1 hf.infix)
  have hfl : [T].flatten = T := by simp
  refine C62_call_partial hb ?_ (by rw [hfl]; exact h) hr hp ?_
  · intro ds1 d ds2 he C bs o hp
    cases ds1 with
    | nil => exact absurd hp (h0 C bs o)
    | cons x ds1 => simp at he
  · rintro p ⟨ds1, ds2, C', bs', he, hj, hpp⟩
    rcases List.eq_nil_or_concat ds1 with rfl | ⟨ini, z, rfl⟩
    · exact absurd hpp (h0 C' bs' p)
    · have hle : ini = [] ∧ ds2 = [] ∧ z = T := by
        cases ini with
        | nil => simp at he; exact ⟨rfl, he.2, he.1.symm⟩
        | cons y ini => simp at he
      obtain ⟨rfl, rfl, rfl⟩ := hle
      have : ([].concat z).flatten = z := by simp
      rw [this] at hpp
      obtain ⟨_, rfl, _⟩ := h.unique hpp
      rw [List.getElem?_eq_none (by omega)] at hr
      cases hr

/-- The body of a call and the call. -/
def body : Text := "{\"name\": \"f\", \"arguments\": {\"a\": 1}}".toList
def callF : Option Text × Text := (some "f".toList, "{\"a\": 1}".toList)

/-- Non-vacuity: the call is cut inside the arguments; name and arguments are delivered in three pieces. -/
example : tItems (fmt (fun b => if b = body then some callF else none))
    ["<tool_call>{\"name\": \"f\", ".toList, "\"arguments\": {\"a".toList, "\": 1}}</tool_call>".toList] =
    [⟨some "f".toList, [], 0⟩, ⟨none, "{\"a".toList, 0⟩, ⟨none, "\": 1}".toList, 0⟩] := by decide +kernel

/-- C62, violated: if the end tag arrives in two pieces it is not recognised; the tag and the answer after it are delivered as arguments
of the call, and the content is lost. The one-shot parser gets both right. -/
theorem C62_end_tag_cut_violated : ∃ ds : List Text, ds.flatten = "<tool_call>".toList ++ body ++ "</tool_call>done".toList ∧
    tItems (fmt (fun b => if b = body then some callF else none)) ds = [⟨some "f".toList, [], 0⟩, ⟨none, "{\"a\": 1}}</tool_call>done".toList, 0⟩] ∧
    tContent (fmt (fun b => if b = body then some callF else none)) ds = [] ∧
    (fmt (fun b => if b = body then some callF else none)).whole ds.flatten = ("done".toList, [⟨callF.1, callF.2, 0⟩]) :=
  ⟨["<tool_call>".toList ++ body.take 8, body.drop 8 ++ "</tool".toList, "_call>done".toList], by decide +kernel, by decide +kernel, by decide +kernel, by decide +kernel⟩

/-- C62, violated: if a chunk ends between the closing brace of the call and the end tag, the client gets that brace as part of the
arguments: `{"a": 1}}` instead of `{"a": 1}`. -/
theorem C62_extra_brace_violated : ∃ ds : List Text, ds.flatten = "<tool_call>".toList ++ body ++ "</tool_call>".toList ∧
    tItems (fmt (fun b => if b = body then some callF else none)) ds = [⟨some "f".toList, [], 0⟩, ⟨none, "{\"a\": 1}}".toList, 0⟩] :=
  ⟨["<tool_call>{\"name\": \"f\", ".toList, "\"arguments\": {\"a\": 1}}".toList, "</tool_call>".toList], by decide +kernel, by decide +kernel⟩

/-- C62, violated: an unreadable call takes a number in the stream, but not in the one-shot parser. -/
theorem C62_index_violated : ∃ T : Text, (tItems (fmt (fun b => if b = body then some callF else none)) [T]).map Item.index = [1] ∧
    ((fmt (fun b => if b = body then some callF else none)).whole T).2.map Item.index = [0] :=
  ⟨"<tool_call>{</tool_call><tool_call>".toList ++ body ++ "</tool_call>".toList, by decide +kernel, by decide +kernel⟩

/-- C62, violated: content that ends like the beginning of a call is never delivered. -/
theorem C62_tail_lost_violated (parse : Text → Option (Option Text × Text)) : tContent (fmt parse) ["1 <".toList] = [] ∧ tItems (fmt parse) ["1 <".toList] = [] :=
  ⟨rfl, rfl⟩

end Verif.Parse
