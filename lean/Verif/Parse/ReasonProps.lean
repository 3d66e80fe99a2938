import Verif.Parse.Reason
namespace Verif.Parse

/-- All the reasoning, all the content a client gets for the chunks `ds`, and what the parser still holds at the end. -/
def reasoning (c : RCfg) (ds : List Text) : Text := (RSt.run c ds).2.1
def content (c : RCfg) (ds : List Text) : Text := (RSt.run c ds).2.2
def held (c : RCfg) (ds : List Text) : Text := (RSt.run c ds).1.buf

/-- Tags are not empty. -/
structure RCfg.Ok (c : RCfg) : Prop where
  start : c.start ≠ []
  stop : c.stop ≠ []

theorem good_optional {c : RCfg} (h : c.force = false) (T : Text) : Good c T := by intro h'; rw [h] at h'; cases h'

/-! ### C59: streaming separation does not depend on the chunks -/

/-- C59 (optional thinking), no start tag: everything is content, except what is held. -/
theorem C59_no_tag {c : RCfg} (hc : c.Ok) (hf : c.force = false) {ds : List Text} (hn : ¬ c.start <:+: ds.flatten) :
    reasoning c ds = [] ∧ content c ds ++ held c ds = ds.flatten ∧ (held c ds ≠ [] ↔ partialTag ds.flatten c.start = true) ∧
      (held c ds).length < c.start.length := by
  have hs := run_stream c ds
  have h := ph_run (c := { c with stream := true }) hc.start hc.stop rfl ds (good_optional hf _)
  unfold reasoning content held
  have hR : (RSt.run { c with stream := true } ds).2.1 = [] → (RSt.run c ds).2.1 = [] := by
    intro hh
    cases hst : c.stream with
    | false => exact hs.2.2 hst
    | true =>
      have : { c with stream := true } = c := by rw [← hst]
      rwa [this] at hh
  rw [hs.1, hs.2.1]
  have hbad : ∀ {a b}, ¬ Begin { c with stream := true } a b ds.flatten := by
    intro a b hb
    unfold Begin at hb
    rw [show ({ c with stream := true } : RCfg).force = c.force from rfl, hf] at hb
    exact hn (First.infix hb)
  generalize hx : RSt.run { c with stream := true } ds = x at h hR ⊢
  obtain ⟨s, R, C⟩ := x
  cases h with
  | seek _ h1 h2 h3 h4 h5 => exact ⟨hR rfl, h1, h4, h5⟩
  | inside hb => exact absurd hb hbad
  | done hb => exact absurd hb hbad
  | hold h1 => rw [show ({ c with stream := true } : RCfg).force = c.force from rfl, hf] at h1; cases h1

theorem seek_bad {c : RCfg} {ds : List Text} {s : RSt} {R C a b : Text} (hf : c.force = false) (hfi : First c.start a b ds.flatten) (h : Ph c ds.flatten s R C) :
    (∃ buf, s = ⟨buf, true, true, false⟩ ∧ C = a ∧ R ++ buf = b ∧ ¬ c.stop <:+: b ∧ (buf ≠ [] ↔ partialTag b c.stop = true) ∧ buf.length < c.stop.length) ∨
    (∃ k x, s = ⟨[], false, x, true⟩ ∧ First c.stop R k b ∧ C = a ++ k) := by
  have hb : ∀ {a' b'}, Begin c a' b' ds.flatten → a' = a ∧ b' = b := by
    intro a' b' h
    unfold Begin at h
    rw [hf] at h
    exact First.unique h hfi
  cases h with
  | seek _ h1 h2 h3 => exact absurd (h1 ▸ hfi.infix) (h2.none h3)
  | @inside buf _ _ b' h1 h2 h3 h4 h5 h6 =>
    obtain ⟨rfl, rfl⟩ := hb h1
    refine Or.inl ⟨buf, rfl, rfl, h2, ?_, h5, h6⟩
    rw [← h2]; exact h3.none h4
  | @done a' b' _ k x h1 h2 =>
    obtain ⟨rfl, rfl⟩ := hb h1
    exact Or.inr ⟨k, x, rfl, h2, rfl⟩
  | hold h1 => rw [hf] at h1; cases h1

/-- C59 (optional thinking), start tag but no end tag: the text before the tag is content, the rest is reasoning, except what is held. -/
theorem C59_open {c : RCfg} (hc : c.Ok) (hf : c.force = false) (hs : c.stream = true) {ds : List Text} {a b : Text} (hb : First c.start a b ds.flatten)
    (hn : ¬ c.stop <:+: b) : content c ds = a ∧ reasoning c ds ++ held c ds = b ∧ (held c ds ≠ [] ↔ partialTag b c.stop = true) ∧
      (held c ds).length < c.stop.length := by
  have h := ph_run hc.start hc.stop hs ds (good_optional hf _)
  unfold reasoning content held
  generalize RSt.run c ds = x at h ⊢
  obtain ⟨s, R, C⟩ := x
  rcases seek_bad hf hb h with ⟨buf, rfl, rfl, h1, _, h2, h3⟩ | ⟨k, x, rfl, h1, _⟩
  · exact ⟨rfl, h1, h2, h3⟩
  · exact absurd h1.infix hn

/-- C59 (optional thinking), start and end tag: the text between them is reasoning, the text before and after is content. -/
theorem C59_closed {c : RCfg} (hc : c.Ok) (hf : c.force = false) (hs : c.stream = true) {ds : List Text} {a b r k : Text} (hb : First c.start a b ds.flatten)
    (he : First c.stop r k b) : content c ds = a ++ k ∧ reasoning c ds = r ∧ held c ds = [] := by
  have h := ph_run hc.start hc.stop hs ds (good_optional hf _)
  unfold reasoning content held
  generalize RSt.run c ds = x at h ⊢
  obtain ⟨s, R, C⟩ := x
  rcases seek_bad hf hb h with ⟨buf, rfl, rfl, h1, h2, _⟩ | ⟨k', x, rfl, h1, rfl⟩
  · exact absurd he.infix h2
  · obtain ⟨rfl, rfl⟩ := h1.unique he
    exact ⟨rfl, rfl, rfl⟩

theorem first_or (pat T : Text) : (∃ a b, First pat a b T) ∨ ¬ pat <:+: T := by
  cases h : find pat T with
  | none => exact Or.inr (find_none h)
  | some i => exact Or.inl ⟨_, _, find_some h⟩

/-- C59: two ways to cut the same text give the same reasoning and content, up to what is held at the end. -/
theorem C59_chunk_invariant {c : RCfg} (hc : c.Ok) (hf : c.force = false) (hs : c.stream = true) {ds ds' : List Text} (he : ds.flatten = ds'.flatten)
    (hh : held c ds = []) : held c ds' = [] ∧ reasoning c ds = reasoning c ds' ∧ content c ds = content c ds' := by
  rcases first_or c.start ds.flatten with ⟨a, b, hab⟩ | hn
  · rcases first_or c.stop b with ⟨r, k, hrk⟩ | hn
    · obtain ⟨a1, a2, a3⟩ := C59_closed hc hf hs hab hrk
      obtain ⟨b1, b2, b3⟩ := C59_closed hc hf hs (he ▸ hab) hrk
      exact ⟨b3, a2.trans b2.symm, a1.trans b1.symm⟩
    · obtain ⟨a1, a2, a3, _⟩ := C59_open hc hf hs hab hn
      obtain ⟨b1, b2, b3, _⟩ := C59_open hc hf hs (he ▸ hab) hn
      have h0 : held c ds' = [] := by
        by_contra hne
        exact (a3.2 (b3.1 hne)) hh
      rw [hh, List.append_nil] at a2
      rw [h0, List.append_nil] at b2
      exact ⟨h0, a2.trans b2.symm, a1.trans b1.symm⟩
  · obtain ⟨a1, a2, a3, _⟩ := C59_no_tag hc hf hn
    obtain ⟨b1, b2, b3, _⟩ := C59_no_tag (ds := ds') hc hf (he ▸ hn)
    have h0 : held c ds' = [] := by
      by_contra hne
      exact (a3.2 (he ▸ b3.1 hne)) hh
    rw [hh, List.append_nil] at a2
    rw [h0, List.append_nil] at b2
    exact ⟨h0, a1.trans b1.symm, a2.trans (he.trans b2.symm)⟩

/-- C59: no tag is ever visible: the content contains no start tag unless the text has one after the end tag. -/
theorem C59_no_tag_in_content {c : RCfg} (hc : c.Ok) (hf : c.force = false) (hs : c.stream = true) {ds : List Text}
    (hn : ∀ a b r k, First c.start a b ds.flatten → ¬ First c.stop r k b) : ¬ c.start <:+: content c ds ∧ ¬ c.stop <:+: reasoning c ds := by
  rcases first_or c.start ds.flatten with ⟨a, b, hab⟩ | hns
  · have hne : ¬ c.stop <:+: b := by
      rcases first_or c.stop b with ⟨r, k, hrk⟩ | h
      · exact absurd hrk (hn a b r k hab)
      · exact h
    obtain ⟨a1, a2, _⟩ := C59_open hc hf hs hab hne
    refine ⟨?_, fun hi => hne (hi.trans ⟨[], held c ds, by simpa using a2⟩)⟩
    rw [a1]
    rintro ⟨x, y, hxy⟩
    have hp : x ++ c.start ++ (y ++ c.start ++ b) = ds.flatten := by rw [hab.1, ← hxy]; simp
    have := hab.2 x _ hp.symm
    have hl := congrArg List.length hxy
    have := List.length_pos_of_ne_nil hc.start
    simp only [List.length_append] at hl
    omega
  · obtain ⟨a1, a2, _⟩ := C59_no_tag hc hf hns
    refine ⟨fun hi => hns (hi.trans ⟨[], held c ds, by simpa using a2⟩), ?_⟩
    rw [a1, List.infix_nil]
    exact hc.stop

theorem forced_cases {c : RCfg} {T : Text} {s : RSt} {R C b : Text} (hf : c.force = true)
    (hb : T = c.start ++ b ∨ (¬ c.start <:+: T ∧ partialTag T c.start = false ∧ T ≠ [] ∧ b = T)) (h : Ph c T s R C) :
    (∃ buf, s = ⟨buf, true, true, false⟩ ∧ C = [] ∧ R ++ buf = b ∧ ¬ c.stop <:+: b ∧ (buf ≠ [] ↔ partialTag b c.stop = true)) ∨
    (∃ x, s = ⟨[], false, x, true⟩ ∧ First c.stop R C b) := by
  have hbb : ∀ {a' b'}, Begin c a' b' T → a' = [] ∧ b' = b := by
    intro a' b' h
    unfold Begin at h
    rw [hf] at h
    refine ⟨h.1, ?_⟩
    rcases h.2 with h1 | ⟨h1, h2, h3⟩
    · rcases hb with h4 | ⟨h4, -⟩
      · exact List.append_cancel_left (h1.symm.trans h4)
      · exact absurd ⟨[], b', by rw [h1]; rfl⟩ h4
    · rcases hb with h4 | ⟨-, -, -, h4⟩
      · exact absurd ⟨[], b, by rw [h4]; rfl⟩ h1
      · rw [h3, h4]
  cases h with
  | seek h1 => rw [hf] at h1; cases h1
  | @inside buf _ _ b' h1 h2 h3 h4 h5 h6 =>
    obtain ⟨rfl, rfl⟩ := hbb h1
    refine Or.inl ⟨buf, rfl, rfl, h2, ?_, h5⟩
    rw [← h2]; exact h3.none h4
  | @done a' b' _ k x h1 h2 =>
    obtain ⟨rfl, rfl⟩ := hbb h1
    exact Or.inr ⟨x, rfl, h2⟩
  | hold h1 h2 h3 =>
    rcases hb with h4 | ⟨_, h4, h5, _⟩
    · exact absurd ⟨[], b, by rw [h4]; rfl⟩ h2
    · rcases h3 with h3 | h3
      · exact absurd h3 h5
      · rw [h4] at h3; cases h3

/-- C59 (forced thinking): the text, without a start tag at its beginning, is reasoning up to the end tag and content after it. -/
theorem C59_forced_partial {c : RCfg} (hc : c.Ok) (hf : c.force = true) (hs : c.stream = true) {ds : List Text} {b : Text}
    (hb : ds.flatten = c.start ++ b ∨ (¬ c.start <:+: ds.flatten ∧ partialTag ds.flatten c.start = false ∧ ds.flatten ≠ [] ∧ b = ds.flatten)) :
    (∀ r k, First c.stop r k b → reasoning c ds = r ∧ content c ds = k ∧ held c ds = []) ∧
    (¬ c.stop <:+: b → reasoning c ds ++ held c ds = b ∧ content c ds = [] ∧ (held c ds ≠ [] ↔ partialTag b c.stop = true)) := by
  have hg : Good c ds.flatten := by
    intro _
    rcases hb with h | h
    · exact Or.inr ⟨b, h.symm⟩
    · exact Or.inl h.1
  have h := ph_run hc.start hc.stop hs ds hg
  unfold reasoning content held
  generalize RSt.run c ds = x at h ⊢
  obtain ⟨s, R, C⟩ := x
  rcases forced_cases hf hb h with ⟨buf, rfl, rfl, h1, h2, h3⟩ | ⟨x, rfl, h1⟩
  · exact ⟨fun r k hrk => absurd hrk.infix h2, fun _ => ⟨h1, rfl, h3⟩⟩
  · refine ⟨fun r k hrk => ?_, fun hn => absurd h1.infix hn⟩
    obtain ⟨rfl, rfl⟩ := h1.unique hrk
    exact ⟨rfl, rfl, rfl⟩

/-- The tags of most models, R L35-47. -/
def think (force stream : Bool) : RCfg := ⟨"<think>".toList, "</think>".toList, force, stream⟩

theorem think_ok (f s : Bool) : (think f s).Ok := ⟨by simp [think], by simp [think]⟩

/-- Non-vacuity: tags cut by chunk boundaries. -/
example : (RSt.run (think false true) ["Hi<th".toList, "ink>a<b</".toList, "think>ok".toList]).2 = ("a<b".toList, "Hiok".toList) := by decide +kernel
example : First (think false true).start "Hi".toList "a<b</think>ok".toList "Hi<think>a<b</think>ok".toList := by
  have : find "<think>".toList "Hi<think>a<b</think>ok".toList = some 2 := by decide +kernel
  exact find_some this

/-- C59, violated: there is no flush. If the answer ends like the beginning of the awaited tag, the client does not get all of it,
however it is cut. -/
theorem C59_tail_lost_violated {c : RCfg} (hc : c.Ok) (hf : c.force = false) {ds : List Text} (hn : ¬ c.start <:+: ds.flatten)
    (hp : partialTag ds.flatten c.start = true) : content c ds ≠ ds.flatten := by
  obtain ⟨-, h2, h3, -⟩ := C59_no_tag hc hf hn
  intro he
  rw [he] at h2
  exact h3.2 hp (List.append_cancel_left (h2.trans (List.append_nil _).symm))

/-- The whole answer can be missing. -/
example : content (think false true) ["1 <".toList] = [] ∧ reasoning (think false true) ["1 <".toList] = [] := by decide +kernel

/-- C59, violated: with forced thinking the same text is separated in different ways, depending on the chunks. -/
theorem C59_forced_chunks_violated : ∃ ds ds' : List Text, ds.flatten = ds'.flatten ∧ reasoning (think true true) ds = "c".toList ∧
    reasoning (think true true) ds' = "ab<think>c".toList :=
  ⟨["ab<think>c".toList], ["ab".toList, "<think>c".toList], by decide +kernel, by decide +kernel, by decide +kernel⟩

/-- C59, violated: with forced thinking an answer that comes in one piece and ends like a start tag is lost as a whole, although
reasoning and content are complete. -/
theorem C59_forced_lost_violated : ∃ ds : List Text, ds.flatten = "why</think>is 1 <".toList ∧ reasoning (think true true) ds = [] ∧
    content (think true true) ds = [] := ⟨["why</think>is 1 <".toList], by decide +kernel, by decide +kernel, by decide +kernel⟩

/-- C59, violated: with `stream_reasoning = False`, "buffer reasoning until the end tag is found" (R L62-64), the reasoning is never
delivered. -/
theorem C59_buffered_reasoning_violated {c : RCfg} (h : c.stream = false) (ds : List Text) : reasoning c ds = [] := (run_stream c ds).2.2 h

/-- C59: the content does not depend on `stream_reasoning`. -/
theorem C59_content_stream (c : RCfg) (ds : List Text) (b : Bool) : content { c with stream := b } ds = content c ds := by
  unfold content
  rw [(run_stream c ds).2.1, (run_stream { c with stream := b } ds).2.1]

/-! ### C60: the one-shot parser and the streaming parser agree -/

theorem first_split {pat p a b T : Text} (h : First pat (p ++ a) b T) : First pat a b (a ++ pat ++ b) := by
  refine ⟨rfl, ?_⟩
  intro a' b' he
  have := h.2 (p ++ a') b' (by rw [h.1]; simp only [List.append_assoc] at he ⊢; rw [he])
  simpa using this

/-- C60: no start tag. -/
theorem C60_no_tag {c : RCfg} (ws : Char → Bool) (hf : c.force = false) {T : Text} (hn : ¬ c.start <:+: T) : c.whole ws T = (none, T) := by
  unfold RCfg.whole
  rw [if_pos ⟨find_eq_none hn, by rw [hf]; decide⟩]

/-- The result for reasoning `r` and content `k`. -/
def result (ws : Char → Bool) (r k : Text) : Option Text × Text := (if strip ws r = [] then none else some (strip ws r), strip ws k)

/-- C60: both tags, and no end tag before the start tag: reasoning and content, stripped. -/
theorem C60_closed {c : RCfg} (ws : Char → Bool) {T a r k : Text} (hb : First c.start a (r ++ c.stop ++ k) T)
    (he : First c.stop (a ++ c.start ++ r) k T) : c.whole ws T = result ws r (a ++ k) := by
  unfold RCfg.whole result
  rw [find_of_first hb, find_of_first he]
  rw [if_neg (by rintro ⟨h, -⟩; cases h)]
  have e0 : a.length + c.start.length ≤ (a ++ c.start ++ r).length := by simp only [List.length_append]; omega
  simp only [if_pos e0]
  have e1 : T.take a.length = a := by rw [hb.1, List.append_assoc, List.take_left]
  have e2 : T.drop (a.length + c.start.length) = r ++ c.stop ++ k := by
    rw [hb.1, ← List.length_append, List.drop_left]
  have e3 : (a ++ c.start ++ r).length - (a.length + c.start.length) = r.length := by simp only [List.length_append]; omega
  have e4 : T.drop ((a ++ c.start ++ r).length + c.stop.length) = k := by
    rw [he.1, ← List.length_append, List.drop_left]
  rw [e1, e2, e3, e4]
  have e5 : (r ++ c.stop ++ k).take r.length = r := by rw [List.append_assoc, List.take_left]
  rw [e5]

/-- C60: a start tag and no end tag at all. -/
theorem C60_open {c : RCfg} (ws : Char → Bool) {T a b : Text} (hb : First c.start a b T) (hn : ¬ c.stop <:+: T) : c.whole ws T = result ws b a := by
  unfold RCfg.whole result
  rw [find_of_first hb, find_eq_none hn]
  rw [if_neg (by rintro ⟨h, -⟩; cases h)]
  simp only
  have e1 : T.take a.length = a := by rw [hb.1, List.append_assoc, List.take_left]
  have e2 : T.drop (a.length + c.start.length) = b := by
    rw [hb.1, ← List.length_append, List.drop_left]
  rw [e1, e2, List.append_nil]

/-- C60: the one-shot parser gives what the streaming parser gives, stripped, for every way to cut the text, if there is no end tag
before the start tag. -/
theorem C60_agree_partial {c : RCfg} (hc : c.Ok) (hf : c.force = false) (hs : c.stream = true) (ws : Char → Bool) {ds : List Text} {a b : Text}
    (hb : First c.start a b ds.flatten) (hn : ∀ x y, First c.stop x y ds.flatten → (a ++ c.start).length ≤ x.length) (hh : held c ds = []) :
    c.whole ws ds.flatten = result ws (reasoning c ds) (content c ds) := by
  rcases first_or c.stop b with ⟨r, k, hrk⟩ | hno
  · obtain ⟨h1, h2, -⟩ := C59_closed hc hf hs hb hrk
    rw [h1, h2]
    have hr := hrk.1
    refine C60_closed ws (hr ▸ hb) ?_
    have hT : ds.flatten = (a ++ c.start ++ r) ++ c.stop ++ k := by rw [hb.1, hr]; simp
    refine ⟨hT, ?_⟩
    intro a' b' he
    rcases first_or c.stop ds.flatten with ⟨x, y, hxy⟩ | hno
    · refine le_trans ?_ (hxy.2 a' b' he)
      have hl := hn x y hxy
      obtain ⟨t, rfl⟩ : a ++ c.start <+: x := by
        refine List.prefix_of_prefix_length_le (l₃ := ds.flatten) ⟨b, hb.1.symm⟩ ⟨c.stop ++ y, ?_⟩ hl
        rw [hxy.1]; simp
      have hbt : b = t ++ c.stop ++ y := by
        have : (a ++ c.start) ++ b = (a ++ c.start) ++ (t ++ c.stop ++ y) := by rw [← hb.1, hxy.1]; simp
        exact List.append_cancel_left this
      have := hrk.2 t y hbt
      simp only [List.length_append]
      omega
    · exact absurd ⟨a', b', he.symm⟩ hno
  · obtain ⟨h1, h2, -⟩ := C59_open hc hf hs hb hno
    rw [hh, List.append_nil] at h2
    rw [h1, h2]
    refine C60_open ws hb ?_
    intro hi
    rcases first_or c.stop ds.flatten with ⟨x, y, hxy⟩ | hno'
    · have hl := hn x y hxy
      obtain ⟨t, rfl⟩ : a ++ c.start <+: x := by
        refine List.prefix_of_prefix_length_le (l₃ := ds.flatten) ⟨b, hb.1.symm⟩ ⟨c.stop ++ y, ?_⟩ hl
        rw [hxy.1]; simp
      have hbt : b = t ++ c.stop ++ y := by
        have : (a ++ c.start) ++ b = (a ++ c.start) ++ (t ++ c.stop ++ y) := by rw [← hb.1, hxy.1]; simp
        exact List.append_cancel_left this
      exact hno ⟨t, y, hbt.symm⟩
    · exact hno' hi

/-- Non-vacuity. -/
example : (think false true).whole (· = ' ') "Hi <think> a </think> ok".toList = (some "a".toList, "Hi  ok".toList) := by decide +kernel

/-- C60, violated: an end tag in the text before the start tag makes the one-shot parser treat the answer as reasoning; the streaming
parser does not. -/
theorem C60_early_end_violated : ∃ T : Text, (think false true).whole (· = ' ') T = (some "why</think>answer".toList, "a</think>b".toList) ∧
    reasoning (think false true) [T] = "why".toList ∧ content (think false true) [T] = "a</think>banswer".toList :=
  ⟨"a</think>b<think>why</think>answer".toList, by decide +kernel, by decide +kernel, by decide +kernel⟩

end Verif.Parse
