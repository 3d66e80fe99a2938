import Verif.Stream.PropsAudio

namespace Verif.Stream

variable {α : Type} {e : Env α} {c : SCfg}

/-! ### The text of the language model in three chunks -/

theorem findSub_absent {w s : Str} (h : ¬ w <:+: s) : Token.findSub w s = none := by
  cases hf : Token.findSub w s with
  | none => rfl
  | some p =>
    obtain ⟨_, ⟨r, hr⟩, _⟩ := Token.findSub_some hf
    exact absurd ⟨s.take p, r, by rw [List.append_assoc, hr, List.take_append_drop]⟩ h

theorem cutLast_absent {s : Str} (h : ¬ ttsEos <:+: s) : cutLast s = s := by
  have : ¬ ttsEos.reverse <:+: s.reverse := by rwa [List.reverse_infix]
  unfold cutLast findLast
  rw [findSub_absent this]
  rfl

/-- The three chunks of an answer of at most ten tokens. -/
theorem three_chunks {nx : Nat → Int} {d : Int → Str} {eos : List Int} (he : PlainEnd d eos) {ts : List Int}
    (ht : IsAnswer nx eos 10 ts) :
    let cc : CCfg := ⟨10, 5, eos⟩
    let i1 := It.begin.advance cc nx d
    let i2 := i1.advance cc nx d
    let i3 := i2.advance cc nx d
    (ts.length ≤ 3 ∧ i1.out.finished = true ∧ i1.out.text = decodeTokens d ts) ∨
    (3 < ts.length ∧ ts.length ≤ 8 ∧ i1.out.finished = false ∧ i2.out.finished = true ∧ i1.out.text ++ i2.out.text = decodeTokens d ts) ∨
    (8 < ts.length ∧ i1.out.finished = false ∧ i2.out.finished = false ∧ i3.out.finished = true ∧
      i1.out.text ++ i2.out.text ++ i3.out.text = decodeTokens d ts ∧ ((∀ t, d t ≠ []) → i3.out.text ≠ [])) := by
  intro cc i1 i2 i3
  have hc : 1 ≤ cc.chunk := by show (1 : Nat) ≤ 5; omega
  have ans : ∀ n, IsAnswer nx cc.eos cc.maxNew ((List.range n).map nx) → (List.range n).map nx = ts := fun n hn => answer_unique hn ht
  have hlen : ∀ n, IsAnswer nx cc.eos cc.maxNew ((List.range n).map nx) → ts.length = n := by
    intro n hn
    rw [← ans n hn]; simp
  have he' : PlainEnd d cc.eos := he
  rcases advance_spec hc he' (running_begin (c := cc) (nx := nx) (d := d) (by show (1 : Nat) ≤ 10; omega)) with ⟨r1, q1, q1'⟩ | ⟨f1, f2, n, f3, f4, ⟨f5, f5'⟩, f6⟩
  swap
  · left
    have hg : It.begin.gen.count = 0 := rfl
    rw [hg, if_pos rfl] at f5'
    exact ⟨by rw [hlen n f3]; simp [cc] at f5'; omega, f2, by rw [List.nil_append] at f6; rw [f6, ans n f3]⟩
  have k1 : (It.begin.advance cc nx d).gen.count = 3 := by rw [q1']; rfl
  rcases advance_spec hc he' r1 with ⟨r2, q2, q2'⟩ | ⟨f1, f2, n, f3, f4, ⟨f5, f5'⟩, f6⟩
  swap
  · right; left
    rw [k1, if_neg (by omega)] at f5'
    exact ⟨by rw [hlen n f3]; omega, by rw [hlen n f3]; simp [cc] at f5'; omega, r1.out, f2, by rw [List.nil_append] at f6; rw [f6, ans n f3]⟩
  have k2 : ((It.begin.advance cc nx d).advance cc nx d).gen.count = 8 := by rw [q2', k1]; rfl
  right; right
  rcases advance_spec hc he' r2 with ⟨r3, q3, q3'⟩ | ⟨f1, f2, n, f3, f4, ⟨f5, f5'⟩, f6⟩
  · exfalso
    have := r3.lt
    rw [q3', k2] at this
    simp [cc] at this
  · refine ⟨by rw [hlen n f3]; omega, r1.out, r2.out, f2, by rw [List.nil_append] at f6; rw [f6, ans n f3], ?_⟩
    intro hd h0
    have ht2 := r2.text
    rw [k2] at ht2 f5
    rw [h0, List.append_nil, show n = 8 + (n - 8) by omega, range_add_map, decode_append, ← ht2] at f6
    have hl := congrArg List.length f6
    obtain ⟨k, hk⟩ : ∃ k, n - 8 = k + 1 := ⟨n - 8 - 1, by omega⟩
    rw [hk, List.range_succ_eq_map, List.map_cons] at hl
    have hne : 0 < (d (nx (8 + 0))).length := List.length_pos_iff.mpr (hd _)
    unfold decodeTokens at hl
    rw [List.flatMap_cons] at hl
    simp only [List.length_append] at hl
    omega

/-- `fetch` in the first call. -/
theorem fetch_first (e : Env α) (c : SCfg) : 
    let i1 := It.begin.advance (chunkCfg e c) e.nx e.d
    let i2 := i1.advance (chunkCfg e c) e.nx e.d
    (i1.out.finished = true → (fetch e c SSt.init).raw = cutLast i1.out.text ∧ (fetch e c SSt.init).it = i1 ∧
      (fetch e c SSt.init).llmFin = false) ∧
    (i1.out.finished = false → (fetch e c SSt.init).it = i2 ∧
      (Token.findSub ttsEos i2.out.text = none → (fetch e c SSt.init).raw = cutLast i1.out.text ++ i2.out.text ∧
        (fetch e c SSt.init).llmFin = i2.out.finished) ∧
      ∀ p, Token.findSub ttsEos i2.out.text = some p → (fetch e c SSt.init).raw = cutLast i1.out.text ++ i2.out.text.take p ∧
        (fetch e c SSt.init).llmFin = true) := by
  intro i1 i2
  have hs : (SSt.init : SSt α).spk = false := rfl
  constructor
  · intro h
    unfold fetch
    simp only [hs, Bool.false_eq_true, if_false]
    rw [if_pos (show (It.advance (chunkCfg e c) e.nx e.d (SSt.init : SSt α).it).out.finished = true from h)]
    exact ⟨rfl, rfl, rfl⟩
  · intro h
    have h' : ¬ (It.advance (chunkCfg e c) e.nx e.d (SSt.init : SSt α).it).out.finished = true := by
      rw [Bool.not_eq_true]; exact h
    unfold fetch
    simp only [hs, Bool.false_eq_true, if_false]
    rw [if_neg h']
    refine ⟨?_, ?_, ?_⟩
    · cases hf : Token.findSub ttsEos i2.out.text with
      | none =>
        rw [show Token.findSub ttsEos (It.advance (chunkCfg e c) e.nx e.d (It.advance (chunkCfg e c) e.nx e.d (SSt.init : SSt α).it)).out.text
          = none from hf]
        rfl
      | some p =>
        rw [show Token.findSub ttsEos (It.advance (chunkCfg e c) e.nx e.d (It.advance (chunkCfg e c) e.nx e.d (SSt.init : SSt α).it)).out.text
          = some p from hf]
        rfl
    · intro hf
      rw [show Token.findSub ttsEos (It.advance (chunkCfg e c) e.nx e.d (It.advance (chunkCfg e c) e.nx e.d (SSt.init : SSt α).it)).out.text
          = none from hf]
      exact ⟨rfl, rfl⟩
    · intro p hf
      rw [show Token.findSub ttsEos (It.advance (chunkCfg e c) e.nx e.d (It.advance (chunkCfg e c) e.nx e.d (SSt.init : SSt α).it)).out.text
          = some p from hf]
      exact ⟨rfl, rfl⟩

/-- `fetch` in a later call. -/
theorem fetch_later {s : SSt α} (hs : s.spk = true) :
    (s.it.out.finished = true → fetch e c s = s) ∧
    (s.it.out.finished = false → (fetch e c s).it = s.it.advance (chunkCfg e c) e.nx e.d ∧
      (Token.findSub ttsEos (s.it.advance (chunkCfg e c) e.nx e.d).out.text = none →
        (fetch e c s).raw = s.raw ++ (s.it.advance (chunkCfg e c) e.nx e.d).out.text ∧
        (fetch e c s).llmFin = (s.it.advance (chunkCfg e c) e.nx e.d).out.finished)) := by
  constructor
  · intro h
    unfold fetch
    simp only [hs, if_true]
    rw [if_pos h]
  · intro h
    unfold fetch
    simp only [hs, if_true]
    rw [if_neg (by simp [h])]
    constructor
    · cases hf : Token.findSub ttsEos (s.it.advance (chunkCfg e c) e.nx e.d).out.text <;> rfl
    · intro hf
      rw [hf]
      exact ⟨rfl, rfl⟩

/-- What the first call knows of the answer, and what the second. -/
theorem two_fetches (he : PlainEnd e.d e.eos) {ts : List Int} (ht : IsAnswer e.nx e.eos 10 ts)
    (hno : ¬ ttsEos <:+: decodeTokens e.d ts) :
    (((fetch e c SSt.init).it.out.finished = true ∧ (fetch e c SSt.init).raw = decodeTokens e.d ts ∧
        ((fetch e c SSt.init).llmFin = true ∨ (fetch e c SSt.init).llmFin = false ∧
          ∀ s : SSt α, s = fetch e c SSt.init → s.it = It.begin.advance (chunkCfg e c) e.nx e.d))) ∨
    (8 < ts.length ∧ (fetch e c SSt.init).it.out.finished = false ∧ (fetch e c SSt.init).llmFin = false ∧
      ∃ rest, (fetch e c SSt.init).raw ++ rest = decodeTokens e.d ts ∧ ((∀ t, e.d t ≠ []) → rest ≠ []) ∧
      ∀ s : SSt α, s.spk = true → s.it = (fetch e c SSt.init).it →
        (fetch e c s).it.out.finished = true ∧ (fetch e c s).raw = s.raw ++ rest ∧ (fetch e c s).llmFin = true) := by
  obtain ⟨a1, a2⟩ := fetch_first e c
  have sub : ∀ p x q : Str, p ++ x ++ q = decodeTokens e.d ts → ¬ ttsEos <:+: x := by
    intro p x q h hx
    exact hno (hx.trans ⟨p, q, h⟩)
  rcases three_chunks he ht with ⟨_, b1, b2⟩ | ⟨_, _, b1, b2, b3⟩ | ⟨b0, b1, b2, b3, b4, b5⟩
  · left
    obtain ⟨c1, c2, c3⟩ := a1 b1
    refine ⟨by rw [c2]; exact b1, ?_, Or.inr ⟨c3, ?_⟩⟩
    · rw [c1, cutLast_absent]
      · exact b2
      · apply sub [] _ []; rw [List.nil_append, List.append_nil]; exact b2
    · intro s hs; rw [hs]; exact c2
  · left
    obtain ⟨c1, c2, _⟩ := a2 b1
    obtain ⟨d1, d2⟩ := c2 (findSub_absent (sub _ _ [] (by rw [List.append_nil]; exact b3)))
    refine ⟨by rw [c1]; exact b2, ?_, Or.inl (by rw [d2]; exact b2)⟩
    rw [d1, cutLast_absent (sub [] _ _ (by rw [List.nil_append]; exact b3))]
    exact b3
  · right
    obtain ⟨c1, c2, _⟩ := a2 b1
    have b4' := b4
    obtain ⟨d1, d2⟩ := c2 (findSub_absent (sub _ _ _ b4))
    have e1 : (fetch e c SSt.init).raw = (It.begin.advance (chunkCfg e c) e.nx e.d).out.text ++
        ((It.begin.advance (chunkCfg e c) e.nx e.d).advance (chunkCfg e c) e.nx e.d).out.text := by
      rw [d1, cutLast_absent (sub [] _ _ (by rw [List.nil_append, ← List.append_assoc]; exact b4))]
    refine ⟨b0, by rw [c1]; exact b2, by rw [d2]; exact b2, _, by rw [e1]; exact b4, b5, ?_⟩
    intro s hs hit
    have hnf : s.it.out.finished = false := by rw [hit, c1]; exact b2
    obtain ⟨g1, g2⟩ := (fetch_later (e := e) (c := c) hs).2 hnf
    have hadv : s.it.advance (chunkCfg e c) e.nx e.d = ((It.begin.advance (chunkCfg e c) e.nx e.d).advance (chunkCfg e c) e.nx e.d).advance
        (chunkCfg e c) e.nx e.d := by rw [hit, c1]
    rw [hadv] at g1 g2
    obtain ⟨g3, g4⟩ := g2 (findSub_absent (sub _ _ [] (by rw [List.append_nil]; exact b4)))
    exact ⟨by rw [g1]; exact b3, g3, by rw [g4]; exact b3⟩

variable [Field α]

/-- The text in the state after `n` calls, `W` being the text of the whole answer. -/
def Told (e : Env α) (c : SCfg) (W : Str) (n : Nat) (s : SSt α) : Prop :=
  (n = 0 ∧ s = SSt.init) ∨
  (1 ≤ n ∧ s.spk = true ∧ ((s.it.out.finished = true ∧ s.raw = W) ∨
    (n = 1 ∧ s.it = (fetch e c SSt.init).it ∧ s.raw = (fetch e c SSt.init).raw ∧ (fetch e c SSt.init).it.out.finished = false)))

omit [Field α] in
theorem told_step (he : PlainEnd e.d e.eos) {ts : List Int} (ht : IsAnswer e.nx e.eos 10 ts)
    (hno : ¬ ttsEos <:+: decodeTokens e.d ts) {n : Nat} {s s' : SSt α} (h : Told e c (decodeTokens e.d ts) n s)
    (h1 : s'.raw = (fetch e c s).raw) (h2 : s'.spk = true) (h3 : s'.it = (fetch e c s).it) :
    Told e c (decodeTokens e.d ts) (n + 1) s' := by
  right
  refine ⟨by omega, h2, ?_⟩
  rcases h with ⟨rfl, rfl⟩ | ⟨hn, hs, hh⟩
  · rcases two_fetches (c := c) he ht hno with ⟨a1, a2, _⟩ | ⟨_, a1, a2, _⟩
    · left; exact ⟨by rw [h3]; exact a1, by rw [h1]; exact a2⟩
    · right; exact ⟨rfl, h3, h1, a1⟩
  · left
    rcases hh with ⟨g1, g2⟩ | ⟨rfl, g1, g2, g3⟩
    · rw [(fetch_later (e := e) (c := c) hs).1 g1] at h1 h3
      exact ⟨by rw [h3]; exact g1, by rw [h1]; exact g2⟩
    · rcases two_fetches (c := c) he ht hno with ⟨a1, _⟩ | ⟨_, a1, a2, rest, a3, a4, a5⟩
      · rw [a1] at g3; cases g3
      · obtain ⟨b1, b2, b3⟩ := a5 s hs g1
        exact ⟨by rw [h3]; exact b1, by rw [h1, b2, g2, a3]⟩

theorem told_running (ha : c.genAudio = true) (hf : Fits e) (he : PlainEnd e.d e.eos) {ts : List Int}
    (ht : IsAnswer e.nx e.eos 10 ts) (hno : ¬ ttsEos <:+: decodeTokens e.d ts) : ∀ n, n ≤ 28 → (∀ j, j < n → e.stop j = none) →
    ∃ s outs, After e c n s outs ∧ s.fin = false ∧ s.audio = 25 * n ∧ Told e c (decodeTokens e.d ts) n s
  | 0, _, _ => ⟨SSt.init, [], after_zero, rfl, rfl, Or.inl ⟨rfl, rfl⟩⟩
  | n + 1, hn, hs => by
    obtain ⟨s, outs, h, h1, h2, h3⟩ := told_running ha hf he ht hno n (by omega) (fun j hj => hs j (by omega))
    have hst : steps e n = 25 := by unfold steps; rw [hs n (by omega)]
    obtain ⟨s', o, g, g1, g2, g3, g4, g5, g6, g7, g8, g9⟩ := after_succ ha hf h h1 (by rw [h2, hst]; omega)
    exact ⟨s', outs ++ [o], g, by rw [g3, hs n (by omega)]; rfl, by rw [g4, h2, hst]; omega, told_step he ht hno h3 g5 g6 g7⟩

/-- **C148** (in audio mode).  The texts of the visited outputs, in order, are the text of the language model's answer
with a limit of ten tokens, if the speech lasts at least two calls or the answer has at most eight tokens. -/
theorem C148_text_partial (ha : c.genAudio = true) (hf : Fits e) (he : PlainEnd e.d e.eos) {ts : List Int}
    (ht : IsAnswer e.nx e.eos 10 ts) (hno : ¬ ttsEos <:+: decodeTokens e.d ts) {k : Nat} (hk : SpeechEnds e k)
    (hroom : 302 + (25 * k + steps e k) ≤ 1024) (hlong : 1 ≤ k ∨ ts.length ≤ 8) :
    ∃ vis : List (Out α), (∀ fuel, k + 2 ≤ fuel → visits (sAdvance e c) sEnd sCur fuel (sBegin e c) = some (vis.map some)) ∧
      (vis.map Out.text).flatten = decodeTokens e.d ts := by
  have := (steps_le (e := e) k).1
  obtain ⟨s, outs, h, h1, h2, h3⟩ := told_running (c := c) ha hf he ht hno k (by omega) hk.1
  obtain ⟨s', o, g, g1, g2, g3, g4, g5, g6, g7, g8, g9⟩ := after_succ ha hf h h1 (by rw [h2]; exact hroom)
  have hfin : s'.fin = true := by rw [g3]; exact Option.isSome_iff_ne_none.mpr hk.2
  have htold := told_step he ht hno h3 g5 g6 g7
  refine ⟨outs ++ [o], fun fuel hfu => sVisits (last_call g hfin) (by rw [g.len]; exact hfu), ?_⟩
  rw [g.text]
  rcases htold with ⟨h0, _⟩ | ⟨_, _, ⟨_, hw⟩ | ⟨hk1, hit, _, hnf⟩⟩
  · omega
  · exact hw
  · exfalso
    rcases two_fetches (c := c) he ht hno with ⟨a1, _⟩ | ⟨a0, _⟩
    · rw [a1] at hnf; cases hnf
    · omega

/-- **C148, violated** (limit).  `max_new_tokens` of the configuration has no effect: whatever it is, and however long
the model would go on, the text shown is the answer cut after ten tokens. -/
theorem C148_limit_violated (hf : Fits e) (he : PlainEnd e.d e.eos) (hlong : ∀ i, i < 10 → e.nx i ∉ e.eos)
    (hno : ¬ ttsEos <:+: decodeTokens e.d ((List.range 10).map e.nx)) {k : Nat} (hk : SpeechEnds e k) (hk1 : 1 ≤ k)
    (hroom : 302 + (25 * k + steps e k) ≤ 1024) (maxNew : Nat) :
    ∃ vis : List (Out α), (∀ fuel, k + 2 ≤ fuel → visits (sAdvance e ⟨maxNew, true⟩) sEnd sCur fuel (sBegin e ⟨maxNew, true⟩) = some (vis.map some)) ∧
      (vis.map Out.text).flatten = decodeTokens e.d ((List.range 10).map e.nx) := by
  refine C148_text_partial (c := ⟨maxNew, true⟩) rfl hf he ⟨by simp, by simp, ?_, Or.inl (by simp)⟩ hno hk hroom (Or.inl hk1)
  intro i hi
  exact hlong i (by simp at hi; omega)

/-- **C148, violated** (short speech).  If the speech model stops in its first call, an answer of more than eight tokens is
shown without its end. -/
theorem C148_short_speech_violated (ha : c.genAudio = true) (hf : Fits e) (he : PlainEnd e.d e.eos) (hd : ∀ t, e.d t ≠ [])
    (hlong : ∀ i, i < 10 → e.nx i ∉ e.eos)
    (hno : ¬ ttsEos <:+: decodeTokens e.d ((List.range 10).map e.nx)) (hk : e.stop 0 ≠ none) :
    ∃ (vis : List (Out α)) (rest : Str), (∀ fuel, 2 ≤ fuel → visits (sAdvance e c) sEnd sCur fuel (sBegin e c) = some (vis.map some)) ∧
      (vis.map Out.text).flatten ++ rest = decodeTokens e.d ((List.range 10).map e.nx) ∧ rest ≠ [] := by
  have ht : IsAnswer e.nx e.eos 10 ((List.range 10).map e.nx) :=
    ⟨by simp, by simp, fun i hi => hlong i (by simp at hi; omega), Or.inl (by simp)⟩
  have := (steps_le (e := e) 0).2
  obtain ⟨s', o, g, g1, g2, g3, g4, g5, g6, g7, g8, g9⟩ := after_succ (n := 0) ha hf (after_zero (e := e) (c := c)) rfl
    (by show 302 + (0 + steps e 0) ≤ 1024; omega)
  have hfin : s'.fin = true := by rw [g3]; exact Option.isSome_iff_ne_none.mpr hk
  rcases two_fetches (c := c) he ht hno with ⟨a1, a2, a3⟩ | ⟨_, a1, a2, rest, a3, a4, _⟩
  · exfalso
    rcases three_chunks he ht with ⟨b0, _⟩ | ⟨_, b0, _⟩ | ⟨b0, b1, b2, b3, b4, b5⟩
    · simp at b0
    · simp at b0
    · obtain ⟨c1, _⟩ := (fetch_first e c).2 b1
      rw [c1] at a1
      have : (It.advance (chunkCfg e c) e.nx e.d (It.advance (chunkCfg e c) e.nx e.d It.begin)).out.finished = false := b2
      rw [this] at a1; cases a1
  · refine ⟨[o], rest, fun fuel hfu => sVisits (outs := [o]) (last_call g hfin) (by simpa using hfu), ?_, a4 hd⟩
    have := g.text
    rw [List.nil_append] at this
    rw [this, g5]
    exact a3

end Verif.Stream
