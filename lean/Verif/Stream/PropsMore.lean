import Verif.Stream.PropsText

namespace Verif.Stream

variable {α : Type} [Field α] {e : Env α} {c : SCfg}

/-! ### Text only -/

theorem next_text (ha : c.genAudio = false) (s : SSt α) : ∃ s' o, next e c s = some (s', o) ∧ o.text = [] ∧
    (s.fin = false → s' = { fetch e c s with fin := s'.fin } ∧ s'.fin = (fetch e c s).llmFin ∧ o.finished = (fetch e c s).llmFin) := by
  have hk := (fetch_keeps (e := e) (c := c) s).2.2.1
  unfold next
  split
  · rename_i h
    exact ⟨_, _, rfl, rfl, fun h' => absurd h (by simp [h'])⟩
  · rename_i h
    dsimp only
    rw [if_neg (by simp [ha])]
    split
    · rename_i h2
      exact ⟨_, _, rfl, rfl, fun _ => ⟨rfl, h2.symm, h2.symm⟩⟩
    · rename_i h2
      rw [Bool.not_eq_true] at h h2
      exact ⟨_, _, rfl, rfl, fun _ => ⟨rfl, by rw [hk, h, h2], h2.symm⟩⟩

/-- **C148, violated** (text only).  With `generate_audio = false` no output ever carries any text. -/
theorem C148_text_only_violated (ha : c.genAudio = false) (n : Nat) : ∃ s b o, (sAdvance e c)^[n] sStart = some (s, b, o) ∧ o.text = [] := by
  induction n with
  | zero => exact ⟨_, _, _, rfl, rfl⟩
  | succ n ih =>
    obtain ⟨s, b, o, h1, h2⟩ := ih
    rw [Function.iterate_succ_apply', h1]
    cases b with
    | true => exact ⟨s, true, o, rfl, h2⟩
    | false =>
      obtain ⟨s', o', g1, g2, _⟩ := next_text (e := e) ha s
      rw [sAdvance_live, g1]
      exact ⟨s', _, o', rfl, g2⟩

/-- **C148, violated** (text only, short answers).  With `generate_audio = false` the loop never ends if the answer has
at most three tokens. -/
theorem C148_text_only_endless_violated (ha : c.genAudio = false) (he : PlainEnd e.d e.eos) {ts : List Int}
    (ht : IsAnswer e.nx e.eos 10 ts) (h3 : ts.length ≤ 3) (n : Nat) :
    visits (sAdvance e c) sEnd sCur n (sBegin e c) = none := by
  rcases three_chunks he ht with ⟨_, b1, b2⟩ | ⟨b0, _⟩ | ⟨b0, _⟩
  rotate_left
  · omega
  · omega
  obtain ⟨c1, c2, c3⟩ := (fetch_first e c).1 b1
  -- a state in which nothing happens any more
  have stuck : ∀ (s : SSt α) (o : Out α), s.spk = true → s.it.out.finished = true → s.llmFin = false → s.fin = false →
      ∃ o', sAdvance e c (some (s, false, o)) = some (s, false, o') := by
    intro s o h1 h2 h3 h4
    obtain ⟨s', o', g1, g2, g3⟩ := next_text (e := e) ha s
    obtain ⟨g4, g5, g6⟩ := g3 h4
    rw [(fetch_later (e := e) (c := c) h1).1 h2] at g4 g5 g6
    rw [sAdvance_live, g1, Option.map_some, g6, h3]
    refine ⟨o', ?_⟩
    rw [h3] at g5
    have : s' = s := by rw [g4, g5, ← h4]
    rw [this]
  have hrun : ∀ n (s : SSt α) (o : Out α), s.spk = true → s.it.out.finished = true → s.llmFin = false → s.fin = false →
      visits (sAdvance e c) sEnd sCur n (some (s, false, o)) = none := by
    intro n
    induction n with
    | zero => intro s o _ _ _ _; rfl
    | succ n ih =>
      intro s o h1 h2 h3 h4
      obtain ⟨o', ho⟩ := stuck s o h1 h2 h3 h4
      unfold visits
      rw [if_neg (by simp [sEnd]), ho, ih s o' h1 h2 h3 h4]; rfl
  obtain ⟨s', o', g1, g2, g3⟩ := next_text (e := e) ha (SSt.init : SSt α)
  obtain ⟨g4, g5, g6⟩ := g3 rfl
  have hb : sBegin e c = some (s', false, o') := by
    show sAdvance e c (some (SSt.init, false, _)) = _
    rw [sAdvance_live, g1, Option.map_some, g6, c3]
  rw [hb]
  have k8 := (fetch_keeps (e := e) (c := c) (SSt.init : SSt α)).2.2.2.2.2.2.2.1
  rw [c3] at g5
  apply hrun
  · rw [g4]; exact k8
  · rw [g4]; show (fetch e c SSt.init).it.out.finished = true; rw [c2]; exact b1
  · rw [g4]; exact c3
  · exact g5

/-- **C148, violated** (after the end marker).  Text the language model produces after `<|tts_eos|>` is not to be spoken
and is cut off, but only within the chunk of the marker: a later chunk is appended, shown and spoken all the same. -/
theorem C148_after_marker_violated (ha : c.genAudio = true) (hf : Fits e) {o1 o2 o3 : COut} {x y : Str}
    (hp : Produces (It.advance (chunkCfg e c) e.nx e.d) It.isEnd It.out It.begin [o1, o2, o3])
    (h1 : ¬ ttsEos <:+: o1.text) (h2 : o2.text = x ++ ttsEos ++ y) (h2' : ∀ i, i < x.length → ¬ ttsEos <+: o2.text.drop i)
    (h3 : ¬ ttsEos <:+: o3.text) (hfin : o1.finished = false ∧ o2.finished = false) (hs : e.stop 0 = none) (hs1 : e.stop 1 ≠ none) :
    ∃ vis : List (Out α), (∀ fuel, 3 ≤ fuel → visits (sAdvance e c) sEnd sCur fuel (sBegin e c) = some (vis.map some)) ∧
      (vis.map Out.text).flatten = o1.text ++ x ++ o3.text := by
  obtain ⟨p1, _, _⟩ := hp
  have q1 : o1 = (It.begin.advance (chunkCfg e c) e.nx e.d).out := by injection p1
  have q2 : o2 = ((It.begin.advance (chunkCfg e c) e.nx e.d).advance (chunkCfg e c) e.nx e.d).out := by
    injection p1 with _ p1; injection p1
  have q3 : o3 = (((It.begin.advance (chunkCfg e c) e.nx e.d).advance (chunkCfg e c) e.nx e.d).advance (chunkCfg e c) e.nx e.d).out := by
    injection p1 with _ p1; injection p1 with _ p1; injection p1
  obtain ⟨c1, c2, c3⟩ := (fetch_first e c).2 (by rw [← q1]; exact hfin.1)
  rw [← q1, ← q2] at c2 c3
  have hfind : Token.findSub ttsEos o2.text = some x.length := by
    cases hq : Token.findSub ttsEos o2.text with
    | none =>
      exact absurd ⟨y, by rw [h2, List.append_assoc, List.drop_left]⟩ (Token.findSub_none hq x.length)
    | some p =>
      obtain ⟨g1, g2, g3⟩ := Token.findSub_some hq
      congr 1
      rcases Nat.lt_trichotomy p x.length with h | h | h
      · exact absurd g2 (h2' p h)
      · exact h
      · exact absurd ⟨y, by rw [h2, List.append_assoc, List.drop_left]⟩ (g3 x.length h)
  obtain ⟨d1, d2⟩ := c3 _ hfind
  rw [cutLast_absent h1, h2, List.append_assoc x, List.take_left] at d1
  have hst : steps e 0 = 25 := by unfold steps; rw [hs]
  have hst1 := (steps_le (e := e) 1).2
  obtain ⟨s, o, g, g1, g2, g3, g4, g5, g6, g7, g8, g9⟩ := after_succ (n := 0) ha hf (after_zero (e := e) (c := c)) rfl
    (by show 302 + (0 + steps e 0) ≤ 1024; omega)
  obtain ⟨s', o', k, k1, k2, k3, k4, k5, k6, k7, k8, k9⟩ := after_succ (n := 1) ha hf g (by rw [g3, hs]; rfl)
    (by rw [g4, hst]; show 302 + (0 + 25 + steps e 1) ≤ 1024; omega)
  have hfin' : s'.fin = true := by rw [k3]; exact Option.isSome_iff_ne_none.mpr hs1
  have hnf : s.it.out.finished = false := by rw [g7, c1, ← q2]; exact hfin.2
  obtain ⟨_, m2⟩ := (fetch_later (e := e) (c := c) g6).2 hnf
  have hadv : (s.it.advance (chunkCfg e c) e.nx e.d).out = o3 := by rw [g7, c1, q3]
  rw [hadv] at m2
  obtain ⟨m3, _⟩ := m2 (findSub_absent h3)
  refine ⟨_, fun fuel hfu => sVisits (last_call k hfin') (by rw [k.len]; exact hfu), ?_⟩
  rw [k.text, k5, m3, g5, d1]

/-! ### What the speech model reads -/

omit [Field α] in
theorem prefill_at {ids : List Int} {b n : Nat} {cache cache' : Nat → Option Int} (h : prefillText ids b n cache = some cache') (p : Nat) :
    cache' p = if b ≤ p ∧ p < n then ids[p]? else cache p := by
  unfold prefillText at h
  split at h
  · split at h
    · cases h; rfl
    · cases h
  · cases h
    rw [if_neg (by omega)]

omit [Field α] in
theorem marks_at {st sp et pd pt : Int} (hm : Marks e st sp et pd pt) {t : Str} (ht : (e.enc t).length < 300) {p : Nat}
    (hp : p < (e.enc t).length + 3) : (e.enc (prepare e t).1)[p]? = (script e st sp et t)[p]? := by
  rw [hm t ht]
  have : [st, sp] ++ e.enc t ++ (et :: List.replicate (300 - (e.enc t).length - 1) pd) ++ [pt]
      = script e st sp et t ++ (List.replicate (300 - (e.enc t).length - 1) pd ++ [pt]) := by
    unfold script
    simp
  rw [this, List.getElem?_append_left (by unfold script; simp; omega)]

omit [Field α] in
theorem prepare_short {t : Str} (ht : (e.enc t).length < 300) : (prepare e t).2 = (e.enc t).length := by
  unfold prepare
  dsimp only
  rw [if_pos ht]

omit [Field α] in
theorem bounds_eq (k len : Nat) (b : Bool) : sliceBounds k b len =
    (if k = 0 then 0 else k * 10 + 2, if b then len + 3 else if k = 0 then 12 else min ((k + 1) * 10 + 2) 302) := rfl

/-- The first ten tokens of the text known in the first call stay as they are (or the whole text is known then). -/
def Settled (e : Env α) (c : SCfg) (W : Str) : Prop :=
  (fetch e c SSt.init).raw = W ∨ (10 ≤ (e.enc (fetch e c SSt.init).raw).length ∧ (e.enc (fetch e c SSt.init).raw).take 10 = (e.enc W).take 10)

omit [Field α] in
theorem script_agree {st sp et : Int} {t w : Str} (h : (e.enc t).take 10 = (e.enc w).take 10) (hl : 10 ≤ (e.enc t).length) {p : Nat} (hp : p < 12) :
    (script e st sp et t)[p]? = (script e st sp et w)[p]? := by
  have hl' : 10 ≤ (e.enc w).length := by
    have := congrArg List.length h
    simp at this; omega
  unfold script
  rw [List.append_assoc, List.append_assoc]
  by_cases h2 : p < 2
  · rw [List.getElem?_append_left (by simpa using h2), List.getElem?_append_left (by simpa using h2)]
  · obtain ⟨q, rfl⟩ : ∃ q, p = q + 2 := ⟨p - 2, by omega⟩
    show (e.enc t ++ [et])[q]? = (e.enc w ++ [et])[q]?
    rw [List.getElem?_append_left (by omega), List.getElem?_append_left (by omega),
      ← List.getElem?_take_of_lt (show q < 10 by omega), h, List.getElem?_take_of_lt (by omega)]

theorem cache_running (ha : c.genAudio = true) (hf : Fits e) (he : PlainEnd e.d e.eos) {ts : List Int}
    (ht : IsAnswer e.nx e.eos 10 ts) (hno : ¬ ttsEos <:+: decodeTokens e.d ts) {st sp et pd pt : Int} (hm : Marks e st sp et pd pt)
    (hl0 : (e.enc (fetch e c SSt.init).raw).length < 300) (hl : (e.enc (decodeTokens e.d ts)).length < 300)
    (hset : Settled e c (decodeTokens e.d ts)) : ∀ n, n ≤ 27 → (∀ j, j < n → e.stop j = none) →
    ∃ s outs, After e c (n + 1) s outs ∧ s.audio = 25 * n + steps e n ∧ s.fin = (e.stop n).isSome ∧ Told e c (decodeTokens e.d ts) (n + 1) s ∧
      ∀ p, p < (e.enc s.raw).length + 3 → p < 10 * (n + 1) + 2 → s.cache p = (script e st sp et s.raw)[p]?
  | 0, _, hs => by
    have := (steps_le (e := e) 0).2
    obtain ⟨s, o, g, g1, g2, g3, g4, g5, g6, g7, g8, g9⟩ := after_succ (n := 0) ha hf (after_zero (e := e) (c := c)) rfl
      (by show 302 + (0 + steps e 0) ≤ 1024; omega)
    refine ⟨s, _, g, by rw [g4]; show 0 + steps e 0 = _; omega, g3, told_step he ht hno (Or.inl ⟨rfl, rfl⟩) g5 g6 g7, ?_⟩
    intro p hp hp2
    have hlen : (e.enc s.raw).length < 300 := by rw [g5]; exact hl0
    rw [prefill_at g9 p, bounds_eq, prepare_short hlen]
    dsimp only
    rw [if_pos, marks_at hm hlen hp]
    refine ⟨by simp, ?_⟩
    split
    · exact hp
    · simp; omega
  | n + 1, hn, hs => by
    obtain ⟨s, outs, h, h2, h1, h3, h4⟩ := cache_running ha hf he ht hno hm hl0 hl hset n (by omega) (fun j hj => hs j (by omega))
    have hst : steps e n = 25 := by unfold steps; rw [hs n (by omega)]
    have := (steps_le (e := e) (n + 1)).2
    have hfin : s.fin = false := by rw [h1, hs n (by omega)]; rfl
    obtain ⟨s', o, g, g1, g2, g3, g4, g5, g6, g7, g8, g9⟩ := after_succ ha hf h hfin (by rw [h2, hst]; omega)
    have htold := told_step he ht hno h3 g5 g6 g7
    -- from the second call on the whole text is known
    have hraw : s'.raw = decodeTokens e.d ts := by
      rcases htold with ⟨h0, _⟩ | ⟨_, _, ⟨_, hw⟩ | ⟨hk1, _⟩⟩
      · omega
      · exact hw
      · omega
    have hlen : (e.enc s'.raw).length < 300 := by rw [hraw]; exact hl
    refine ⟨s', _, g, by rw [g4, h2, hst]; omega, g3, htold, ?_⟩
    intro p hp hp2
    rw [prefill_at g9 p, bounds_eq, prepare_short hlen]
    dsimp only
    rw [if_neg (show ¬ n + 1 = 0 by omega)]
    by_cases hpb : (n + 1) * 10 + 2 ≤ p
    · rw [if_pos, marks_at hm hlen hp]
      refine ⟨hpb, ?_⟩
      split
      · exact hp
      · rw [if_neg (show ¬ n + 1 = 0 by omega)]; omega
    · rw [if_neg (by omega)]
      -- written before
      rcases h3 with ⟨h0, _⟩ | ⟨_, _, ⟨_, hw⟩ | ⟨hk1, hit, hr, hnf⟩⟩
      · omega
      · rw [h4 p (by rw [hw, ← hraw]; exact hp) (by omega), hw, hraw]
      · rcases hset with hset | ⟨s1, s2⟩
        · rw [h4 p (by rw [hr, hset, ← hraw]; exact hp) (by omega), hr, hset, hraw]
        · rw [h4 p (by rw [hr]; omega) (by omega), hr, hraw]
          exact script_agree s2 s1 (by omega)

/-- **C149.**  Whenever the speech model samples audio tokens of call `n` (from 0), the part of its cache that they may look at
(the first `10 (n + 1) + 2` positions, C151) holds what it should: the start marker, the speaker, the tokens of the
text so far and the end marker — provided the text known in the first call already has ten tokens that later text does not change,
or is the whole text. -/
theorem C149_cache_partial (ha : c.genAudio = true) (hf : Fits e) (he : PlainEnd e.d e.eos) {ts : List Int}
    (ht : IsAnswer e.nx e.eos 10 ts) (hno : ¬ ttsEos <:+: decodeTokens e.d ts) {st sp et pd pt : Int} (hm : Marks e st sp et pd pt)
    {T0 : Str} (h0 : textAfter e c 1 = some T0)
    (hl0 : (e.enc T0).length < 300) (hl : (e.enc (decodeTokens e.d ts)).length < 300)
    (hset : T0 = decodeTokens e.d ts ∨ (10 ≤ (e.enc T0).length ∧ (e.enc T0).take 10 = (e.enc (decodeTokens e.d ts)).take 10))
    (n : Nat) (hn : n ≤ 27) (hs : ∀ j, j < n → e.stop j = none) :
    ∃ T, textAfter e c (n + 1) = some T ∧ (1 ≤ n → T = decodeTokens e.d ts) ∧
      ∀ p, p < (script e st sp et T).length → p < 10 * (n + 1) + 2 → cacheAfter e c (n + 1) p = (script e st sp et T)[p]? := by
  have hT0 : T0 = (fetch e c SSt.init).raw := by
    have := (steps_le (e := e) 0).2
    obtain ⟨s, o, g, g1, g2, g3, g4, g5, _⟩ := after_succ (n := 0) ha hf (after_zero (e := e) (c := c)) rfl
      (by show 302 + (0 + steps e 0) ≤ 1024; omega)
    unfold textAfter at h0
    rw [g.state] at h0
    simp only [Option.map_some, Option.some.injEq] at h0
    rw [← h0, g5]
  subst hT0
  obtain ⟨s, outs, h, _, _, h3, h4⟩ := cache_running ha hf he ht hno hm hl0 hl hset n hn hs
  refine ⟨s.raw, by unfold textAfter; rw [h.state]; rfl, ?_, ?_⟩
  · intro h1
    rcases h3 with ⟨h0, _⟩ | ⟨_, _, ⟨_, hw⟩ | ⟨hk1, _⟩⟩
    · omega
    · exact hw
    · omega
  · intro p hp hp2
    unfold cacheAfter
    rw [h.state]
    exact h4 p (by unfold script at hp; simp at hp; omega) hp2

theorem cache_stale (ha : c.genAudio = true) (hf : Fits e) (he : PlainEnd e.d e.eos) {ts : List Int}
    (ht : IsAnswer e.nx e.eos 10 ts) (hno : ¬ ttsEos <:+: decodeTokens e.d ts) {st sp et pd pt : Int} (hm : Marks e st sp et pd pt)
    (hlen : 8 < ts.length) (hl0 : (e.enc (fetch e c SSt.init).raw).length < 10) (hfirst : (fetch e c SSt.init).it.out.finished = false) :
    ∀ n, n ≤ 27 → (∀ j, j < n → e.stop j = none) →
    ∃ s outs, After e c (n + 1) s outs ∧ s.audio = 25 * n + steps e n ∧ s.fin = (e.stop n).isSome ∧ Told e c (decodeTokens e.d ts) (n + 1) s ∧
      s.cache (2 + (e.enc (fetch e c SSt.init).raw).length) = some et
  | 0, _, hs => by
    have := (steps_le (e := e) 0).2
    obtain ⟨s, o, g, g1, g2, g3, g4, g5, g6, g7, g8, g9⟩ := after_succ (n := 0) ha hf (after_zero (e := e) (c := c)) rfl
      (by show 302 + (0 + steps e 0) ≤ 1024; omega)
    refine ⟨s, _, g, by rw [g4]; show 0 + steps e 0 = _; omega, g3, told_step he ht hno (Or.inl ⟨rfl, rfl⟩) g5 g6 g7, ?_⟩
    have hlen : (e.enc s.raw).length < 300 := by rw [g5]; omega
    rw [prefill_at g9, bounds_eq, prepare_short hlen]
    dsimp only
    rw [if_pos, marks_at hm hlen (by rw [g5]; omega)]
    · rw [g5]
      unfold script
      rw [List.getElem?_append_right (by simp; omega)]
      simp only [List.length_append, List.length_cons, List.length_nil]
      rw [show 2 + (e.enc (fetch e c SSt.init).raw).length - (0 + 1 + 1 + (e.enc (fetch e c SSt.init).raw).length) = 0 by omega]
      rfl
    · refine ⟨by simp, ?_⟩
      split
      · rw [g5]; omega
      · simp; omega
  | n + 1, hn, hs => by
    obtain ⟨s, outs, h, h2, h1, h3, h4⟩ := cache_stale ha hf he ht hno hm hlen hl0 hfirst n (by omega) (fun j hj => hs j (by omega))
    have hst : steps e n = 25 := by unfold steps; rw [hs n (by omega)]
    have := (steps_le (e := e) (n + 1)).2
    have hfin : s.fin = false := by rw [h1, hs n (by omega)]; rfl
    obtain ⟨s', o, g, g1, g2, g3, g4, g5, g6, g7, g8, g9⟩ := after_succ ha hf h hfin (by rw [h2, hst]; omega)
    refine ⟨s', _, g, by rw [g4, h2, hst]; omega, g3, told_step he ht hno h3 g5 g6 g7, ?_⟩
    rw [prefill_at g9, bounds_eq]
    dsimp only
    rw [if_neg (show ¬ n + 1 = 0 by omega), if_neg (by omega), h4]

/-- **C149, violated.**  If the text known in the first call has fewer than ten tokens and is not the whole text, the end
marker is written behind it and never replaced: at the position of the first token that is missing then, the speech model
reads the end marker in every later call. -/
theorem C149_stale_violated (ha : c.genAudio = true) (hf : Fits e) (he : PlainEnd e.d e.eos) {ts : List Int}
    (ht : IsAnswer e.nx e.eos 10 ts) (hno : ¬ ttsEos <:+: decodeTokens e.d ts) {st sp et pd pt : Int} (hm : Marks e st sp et pd pt)
    {T0 : Str} (h0 : textAfter e c 1 = some T0) (hl0 : (e.enc T0).length < 10) (hnot : T0 ≠ decodeTokens e.d ts)
    (n : Nat) (hn1 : 1 ≤ n) (hn : n ≤ 27) (hs : ∀ j, j < n → e.stop j = none) :
    textAfter e c (n + 1) = some (decodeTokens e.d ts) ∧ cacheAfter e c (n + 1) (2 + (e.enc T0).length) = some et ∧
    (∀ t, (e.enc (decodeTokens e.d ts))[(e.enc T0).length]? = some t → t ≠ et →
      cacheAfter e c (n + 1) (2 + (e.enc T0).length) ≠ (script e st sp et (decodeTokens e.d ts))[2 + (e.enc T0).length]?) := by
  have hT0 : T0 = (fetch e c SSt.init).raw := by
    have := (steps_le (e := e) 0).2
    obtain ⟨s, o, g, g1, g2, g3, g4, g5, _⟩ := after_succ (n := 0) ha hf (after_zero (e := e) (c := c)) rfl
      (by show 302 + (0 + steps e 0) ≤ 1024; omega)
    unfold textAfter at h0
    rw [g.state] at h0
    simp only [Option.map_some, Option.some.injEq] at h0
    rw [← h0, g5]
  subst hT0
  rcases two_fetches (c := c) he ht hno with ⟨_, a2, _⟩ | ⟨a0, a1, _⟩
  · exact absurd a2 hnot
  obtain ⟨s, outs, h, _, _, h3, h4⟩ := cache_stale ha hf he ht hno hm a0 hl0 a1 n hn hs
  have hraw : s.raw = decodeTokens e.d ts := by
    rcases h3 with ⟨h0, _⟩ | ⟨_, _, ⟨_, hw⟩ | ⟨hk1, _⟩⟩
    · omega
    · exact hw
    · omega
  have hc : cacheAfter e c (n + 1) (2 + (e.enc (fetch e c SSt.init).raw).length) = some et := by
    unfold cacheAfter; rw [h.state]; exact h4
  refine ⟨by unfold textAfter; rw [h.state, ← hraw]; rfl, hc, ?_⟩
  intro t ht hne heq
  rw [hc] at heq
  unfold script at heq
  rw [List.append_assoc, List.getElem?_append_right (by simp)] at heq
  have hlt : (e.enc (fetch e c SSt.init).raw).length < (e.enc (decodeTokens e.d ts)).length := (List.getElem?_eq_some_iff.mp ht).1
  simp only [List.length_cons, List.length_nil] at heq
  rw [show 2 + (e.enc (fetch e c SSt.init).raw).length - (0 + 1 + 1) = (e.enc (fetch e c SSt.init).raw).length by omega,
    List.getElem?_append_left hlt, ht] at heq
  exact hne (Option.some.inj heq).symm

/-! ### What the audio tokens may look at -/

/-- **C151.**  With an audio chunk size of at least 26 (the default is 50), the audio token number `t` of call `n` looks only
at text that has been given to the speech model by then (the first `10 (n + 1) + 2` positions), at most up to the end
marker, and at all earlier audio tokens but the first position of the audio (302), which no token ever looks at. -/
theorem C151_mask {A n t len i : Nat} (hA : 26 ≤ A) (ht : t < 25) (hlen : len ≤ 300) :
    (chunkMask A (302 + 25 * n + t) len i = true ↔
      (i ≤ 302 + 25 * n + t ∧ 303 ≤ i) ∨
      (i < min ((302 + 25 * n + t - 300 + A - 1) / A * 10) 300 + 2 ∧ i < len + 3)) ∧
    (i < 302 → chunkMask A (302 + 25 * n + t) len i = true → i < 10 * (n + 1) + 2 ∧ i < len + 3) ∧
    chunkMask A (302 + 25 * n + t) len 302 = false := by
  obtain ⟨q, hq⟩ : ∃ q, q = (302 + 25 * n + t - 300 + A - 1) / A := ⟨_, rfl⟩
  have hqn : q ≤ n + 1 := by
    rw [hq, show 302 + 25 * n + t - 300 + A - 1 = 25 * n + t + 1 + A by omega]
    apply Nat.lt_succ_iff.mp
    rw [Nat.div_lt_iff_lt_mul (by omega)]
    have : A * (n + 1) ≥ 26 * (n + 1) := Nat.mul_le_mul_right _ hA
    have h2 : (n + 1).succ * A = A * (n + 1) + A := by rw [Nat.succ_mul, Nat.mul_comm]
    rw [h2]; omega
  have hiff : ∀ j, chunkMask A (302 + 25 * n + t) len j = true ↔
      (j ≤ 302 + 25 * n + t ∧ 303 ≤ j) ∨ (j < min (q * 10) 300 + 2 ∧ j < len + 3) := by
    intro j
    unfold chunkMask textMask
    dsimp only
    rw [← hq]
    obtain ⟨m, hmq⟩ : ∃ m, m = min (q * 10) 300 := ⟨_, rfl⟩
    rw [← hmq]
    have : m ≤ 300 := by omega
    simp only [Bool.and_eq_true, Bool.not_eq_true', Bool.and_eq_false_iff, decide_eq_true_eq, decide_eq_false_iff_not, Bool.not_eq_false',
      Bool.or_eq_true]
    omega
  refine ⟨by rw [← hq]; exact hiff i, ?_, ?_⟩
  · intro hi h
    have := (hiff i).mp h
    omega
  · rw [← Bool.not_eq_true, hiff]
    omega

/-- **C151, violated.**  With an audio chunk size of 25, the number of audio tokens in a call, the last audio token of each
call looks one text chunk further, at positions that have not been written. -/
theorem C151_chunk25_violated (n len i : Nat) (h1 : 10 * (n + 1) + 2 ≤ i) (h2 : i < 10 * (n + 2) + 2) (h3 : i < 302) (h4 : i < len + 3) :
    chunkMask 25 (302 + 25 * n + 24) len i = true := by
  have hq : (302 + 25 * n + 24 - 300 + 25 - 1) / 25 = n + 2 := by omega
  unfold chunkMask textMask
  dsimp only
  rw [hq]
  simp only [Bool.and_eq_true, Bool.not_eq_true', Bool.and_eq_false_iff, decide_eq_true_eq, decide_eq_false_iff_not, Bool.not_eq_false',
      Bool.or_eq_true]
  omega

end Verif.Stream
