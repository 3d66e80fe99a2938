import Verif.Stream.PropsChunk

namespace Verif.Stream

variable {α : Type} {e : Env α} {c : SCfg}

theorem fetch_keeps (s : SSt α) : (fetch e c s).prevLen = s.prevLen ∧ (fetch e c s).chunkIdx = s.chunkIdx ∧
    (fetch e c s).fin = s.fin ∧ (fetch e c s).prev = s.prev ∧ (fetch e c s).newLen = s.newLen ∧ (fetch e c s).audio = s.audio ∧
    (fetch e c s).cache = s.cache ∧ (fetch e c s).spk = true ∧ ∃ x, (fetch e c s).raw = s.raw ++ x := by
  obtain ⟨s1, hs1⟩ : ∃ s1, s1 = (if s.spk then s else
      { s with spk := true, it := s.it.advance (chunkCfg e c) e.nx e.d,
               raw := s.raw ++ cutLast (s.it.advance (chunkCfg e c) e.nx e.d).out.text }) := ⟨_, rfl⟩
  have h1 : s1.prevLen = s.prevLen ∧ s1.chunkIdx = s.chunkIdx ∧ s1.fin = s.fin ∧ s1.prev = s.prev ∧ s1.newLen = s.newLen ∧
      s1.audio = s.audio ∧ s1.cache = s.cache ∧ s1.spk = true ∧ ∃ x, s1.raw = s.raw ++ x := by
    by_cases h : s.spk = true
    · rw [if_pos h] at hs1
      subst hs1
      exact ⟨rfl, rfl, rfl, rfl, rfl, rfl, rfl, h, [], by simp⟩
    · rw [if_neg h] at hs1
      subst hs1
      exact ⟨rfl, rfl, rfl, rfl, rfl, rfl, rfl, rfl, _, rfl⟩
  obtain ⟨a1, a2, a3, a4, a5, a6, a7, a8, y, a9⟩ := h1
  unfold fetch
  simp only [← hs1]
  split
  · exact ⟨a1, a2, a3, a4, a5, a6, a7, a8, y, a9⟩
  · split
    · exact ⟨a1, a2, a3, a4, a5, a6, a7, a8, y ++ _, by rw [a9, List.append_assoc]⟩
    · exact ⟨a1, a2, a3, a4, a5, a6, a7, a8, y ++ _, by rw [a9, List.append_assoc]⟩

theorem prepare_le (t : Str) : (prepare e t).2 ≤ 300 := by
  unfold prepare
  dsimp only
  split
  · dsimp only; omega
  · exact le_refl _

theorem bounds_le (k len : Nat) (b : Bool) (h : len ≤ 300) : (sliceBounds k b len).2 ≤ 303 := by
  unfold sliceBounds
  dsimp only
  split
  · omega
  · split <;> omega

theorem prefill_ok (hf : Fits e) (t : Str) (k : Nat) (b : Bool) (cache : Nat → Option Int) :
    ∃ cache', prefillText (e.enc (prepare e t).1) (sliceBounds k b (prepare e t).2).1 (sliceBounds k b (prepare e t).2).2 cache
      = some cache' := by
  unfold prefillText
  have h1 := bounds_le k (prepare e t).2 b (prepare_le t)
  have h2 := hf t
  split
  · rw [if_pos (by omega)]
    exact ⟨_, rfl⟩
  · exact ⟨_, rfl⟩

theorem steps_le (k : Nat) : 1 ≤ steps e k ∧ steps e k ≤ 25 := by
  unfold steps
  split
  · omega
  · rename_i j _; have := j.isLt; omega

variable [Field α]

/-- What one call hands out as audio, and what it keeps for the next. -/
def joined (prev : Option (List α)) (w : List α) : Option (List α) × List α :=
  match prev with
  | some p => (some (overlapAdd p w 2048).1, (overlapAdd p w 2048).2)
  | none => (none, w)

/-- One call in audio mode. -/
theorem next_audio (ha : c.genAudio = true) (hf : Fits e) {s : SSt α} (h0 : s.fin = false)
    (hroom : 302 + (s.audio + steps e s.chunkIdx) ≤ 1024) :
    ∃ s' o, next e c s = some (s', o) ∧ o.finished = false ∧ o.text = (fetch e c s).raw.drop s.prevLen ∧
      o.wav = (joined s.prev (e.wav s.chunkIdx)).1 ∧ s'.prev = some (joined s.prev (e.wav s.chunkIdx)).2 ∧
      s'.fin = (e.stop s.chunkIdx).isSome ∧ s'.chunkIdx = s.chunkIdx + 1 ∧ s'.audio = s.audio + steps e s.chunkIdx ∧
      s'.raw = (fetch e c s).raw ∧ s'.prevLen = s'.raw.length ∧ s'.spk = true ∧ s'.it = (fetch e c s).it ∧
      s'.llmFin = (fetch e c s).llmFin ∧
      prefillText (e.enc (prepare e s'.raw).1) (sliceBounds s.chunkIdx s'.llmFin (prepare e s'.raw).2).1
        (sliceBounds s.chunkIdx s'.llmFin (prepare e s'.raw).2).2 s.cache = some s'.cache := by
  obtain ⟨k1, k2, k3, k4, k5, k6, k7, k8, x, k9⟩ := fetch_keeps (e := e) (c := c) s
  obtain ⟨cache, hc⟩ := prefill_ok hf (fetch e c s).raw (fetch e c s).chunkIdx (fetch e c s).llmFin (fetch e c s).cache
  unfold next
  rw [if_neg (by simp [h0])]
  dsimp only
  rw [if_pos ha]
  unfold audioPart
  dsimp only
  rw [hc, Option.bind_some, if_pos (by rw [k6, k2]; exact hroom)]
  rw [k2, k7] at hc
  refine ⟨_, _, rfl, rfl, by rw [k1], ?_, ?_, ?_, by rw [k2], by rw [k6, k2], rfl, rfl, k8, rfl, rfl, hc⟩
  · rw [k4, k2]; unfold joined; cases s.prev <;> rfl
  · dsimp only; rw [k4, k2]; unfold joined; cases s.prev <;> rfl
  · dsimp only
    rw [k6, k2]
    have : ¬ (1024 < if (e.stop s.chunkIdx).isSome = true then s.audio + steps e s.chunkIdx - 1 else s.audio + steps e s.chunkIdx) := by
      split <;> omega
    simp [this]

theorem sAdvance_live (s : SSt α) (o : Out α) :
    sAdvance e c (some (s, false, o)) = (next e c s).map fun r => (r.1, r.2.finished, r.2) := rfl

/-- After `n` calls. -/
structure After (e : Env α) (c : SCfg) (n : Nat) (s : SSt α) (outs : List (Out α)) : Prop where
  len : outs.length = n
  state : (sAdvance e c)^[n] sStart = some (s, false, (outs.getLast?).getD ⟨[], none, false⟩)
  live : ∀ i, i < n → sEnd ((sAdvance e c)^[i] sStart) = false
  shown : outs.map some = (List.range n).map (fun i => sCur ((sAdvance e c)^[i + 1] sStart))
  going : ∀ o ∈ outs, o.finished = false
  text : (outs.map Out.text).flatten = s.raw
  prevLen : s.prevLen = s.raw.length
  chunk : s.chunkIdx = n

theorem after_zero : After e c 0 SSt.init [] :=
  ⟨rfl, rfl, fun i hi => absurd hi (Nat.not_lt_zero _), rfl, fun o ho => (by cases ho), rfl, rfl, rfl⟩

theorem after_succ (ha : c.genAudio = true) (hf : Fits e) {n : Nat} {s : SSt α} {outs : List (Out α)} (h : After e c n s outs)
    (h0 : s.fin = false) (hroom : 302 + (s.audio + steps e n) ≤ 1024) :
    ∃ s' o, After e c (n + 1) s' (outs ++ [o]) ∧ o.wav = (joined s.prev (e.wav n)).1 ∧ s'.prev = some (joined s.prev (e.wav n)).2 ∧
      s'.fin = (e.stop n).isSome ∧ s'.audio = s.audio + steps e n ∧ s'.raw = (fetch e c s).raw ∧
      s'.spk = true ∧ s'.it = (fetch e c s).it ∧ s'.llmFin = (fetch e c s).llmFin ∧
      prefillText (e.enc (prepare e s'.raw).1) (sliceBounds n s'.llmFin (prepare e s'.raw).2).1
        (sliceBounds n s'.llmFin (prepare e s'.raw).2).2 s.cache = some s'.cache := by
  have hch := h.chunk
  obtain ⟨s', o, g1, g2, g3, g4, g5, g6, g7, g8, g9, g10, g11, g12, g13, g14⟩ := next_audio ha hf h0 (by rw [hch]; exact hroom)
  rw [hch] at g4 g5 g6 g7 g8 g14
  have hst : (sAdvance e c)^[n + 1] sStart = some (s', false, o) := by
    rw [Function.iterate_succ_apply', h.state]
    rw [sAdvance_live, g1, Option.map_some, g2]
  refine ⟨s', o, ⟨by simp [h.len], by rw [hst]; simp, ?_, ?_, ?_, ?_, g10, g7⟩, g4, g5, g6, g8, g9, g11, g12, g13, g14⟩
  · intro i hi
    by_cases hn : i = n
    · rw [hn, h.state]; rfl
    · exact h.live i (by omega)
  · rw [List.map_append, h.shown, List.range_succ, List.map_append]
    congr 1
    show [some o] = [sCur ((sAdvance e c)^[n + 1] sStart)]
    rw [hst]; rfl
  · intro x hx
    rcases List.mem_append.mp hx with hx | hx
    · exact h.going x hx
    · rw [List.mem_singleton.mp hx]; exact g2
  · obtain ⟨_, _, _, _, _, _, _, _, x, hx⟩ := fetch_keeps (e := e) (c := c) s
    rw [List.map_append, List.flatten_append, h.text, g9]
    simp only [List.map_cons, List.map_nil, List.flatten_cons, List.flatten_nil, List.append_nil]
    rw [g3, h.prevLen, hx, List.drop_left]

/-- The first `n` calls when the speech model has not stopped in them. -/
theorem after_running (ha : c.genAudio = true) (hf : Fits e) : ∀ n, n ≤ 28 → (∀ j, j < n → e.stop j = none) →
    ∃ s outs, After e c n s outs ∧ s.fin = false ∧ s.audio = 25 * n ∧ (n = 0 → s = SSt.init ∧ outs = []) ∧ (1 ≤ n → s.spk = true)
  | 0, _, _ => ⟨SSt.init, [], after_zero, rfl, rfl, fun _ => ⟨rfl, rfl⟩, fun h => absurd h (by omega)⟩
  | n + 1, hn, hs => by
    obtain ⟨s, outs, h, h1, h2, _⟩ := after_running ha hf n (by omega) (fun j hj => hs j (by omega))
    have hst : steps e n = 25 := by unfold steps; rw [hs n (by omega)]
    obtain ⟨s', o, g, g1, g2, g3, g4, g5, g6, g7, g8, g9⟩ := after_succ ha hf h h1 (by rw [h2, hst]; omega)
    exact ⟨s', outs ++ [o], g, by rw [g3, hs n (by omega)]; rfl, by rw [g4, h2, hst]; omega, fun h => absurd h (by omega), fun _ => g6⟩

/-- The call after the last. -/
theorem last_call {n : Nat} {s : SSt α} {outs : List (Out α)} (h : After e c n s outs) (h0 : s.fin = true) :
    Produces (sAdvance e c) sEnd sCur sStart ((outs ++ [(⟨[], s.prev, true⟩ : Out α)]).map some) := by
  have hst : (sAdvance e c)^[n + 1] sStart = some ({ s with prev := none }, true, ⟨[], s.prev, true⟩) := by
    rw [Function.iterate_succ_apply', h.state]
    rw [sAdvance_live]
    unfold next
    rw [if_pos h0]; rfl
  refine ⟨?_, ?_, ?_⟩
  · rw [List.length_map, List.length_append, h.len, List.length_singleton, List.map_append, h.shown, List.range_succ, List.map_append]
    congr 1
    show _ = [sCur ((sAdvance e c)^[n + 1] sStart)]
    rw [hst]; rfl
  · intro i hi
    rw [List.length_map, List.length_append, h.len, List.length_singleton] at hi
    by_cases hn : i = n
    · rw [hn, h.state]; rfl
    · exact h.live i (by omega)
  · rw [List.length_map, List.length_append, h.len, List.length_singleton, hst]; rfl

/-- A range-based `for` over the speech generator: all outputs but the last. -/
theorem sVisits {outs : List (Out α)} {x : Out α} (h : Produces (sAdvance e c) sEnd sCur sStart ((outs ++ [x]).map some)) {fuel : Nat}
    (hf : outs.length + 1 ≤ fuel) : visits (sAdvance e c) sEnd sCur fuel (sBegin e c) = some (outs.map some) := by
  have := visits_of _ sStart h (by simp) (fuel + 1) (by simp; omega)
  unfold visits at this
  rw [if_neg (by simp [sStart, sEnd])] at this
  cases hv : visits (sAdvance e c) sEnd sCur fuel (sAdvance e c sStart) with
  | none => rw [hv] at this; cases this
  | some l =>
    rw [hv] at this
    simp only [Option.map_some, Option.some.injEq, List.cons.injEq, true_and] at this
    show visits (sAdvance e c) sEnd sCur fuel (sAdvance e c sStart) = _
    rw [hv, this, List.map_append, List.map_singleton, List.dropLast_concat]

theorem speech_run (ha : c.genAudio = true) (hf : Fits e) {k : Nat} (hk : SpeechEnds e k) (hroom : 302 + (25 * k + steps e k) ≤ 1024) :
    ∃ s outs, After e c (k + 1) s outs ∧ s.fin = true ∧
      (∃ s0 o, ∃ init, outs = init ++ [o] ∧ After e c k s0 init ∧ o.wav = (joined s0.prev (e.wav k)).1 ∧
        s.prev = some (joined s0.prev (e.wav k)).2 ∧ (k = 0 → s0 = SSt.init ∧ init = [])) := by
  have := (steps_le (e := e) k).1
  obtain ⟨s, outs, h, h1, h2, h3, _⟩ := after_running ha hf k (by omega) hk.1
  obtain ⟨s', o, g, g1, g2, g3, _⟩ := after_succ ha hf h h1 (by rw [h2]; exact hroom)
  refine ⟨s', outs ++ [o], g, ?_, s, o, outs, rfl, h, g1, g2, h3⟩
  rw [g3]
  exact Option.isSome_iff_ne_none.mpr hk.2

/-- **C147, violated** (speech).  The documented loop `for (auto& output : generator)` never visits the output that
carries the last piece of audio: the generator produces one more output than the loop visits, and that one holds the
end of the speech: everything of the last waveform beyond the 2048 samples of the overlap, or all of it if the speech
model finishes in its first call, and then no audio is visited at all. -/
theorem C147_speech_loop_violated (ha : c.genAudio = true) (hf : Fits e) {k : Nat} (hk : SpeechEnds e k)
    (hroom : 302 + (25 * k + steps e k) ≤ 1024) :
    ∃ vis last, Produces (sAdvance e c) sEnd sCur sStart ((vis ++ [(⟨[], some last, true⟩ : Out α)]).map some) ∧
      (∀ fuel, k + 2 ≤ fuel → visits (sAdvance e c) sEnd sCur fuel (sBegin e c) = some (vis.map some)) ∧
      vis.length = k + 1 ∧ (∀ o ∈ vis, o.finished = false) ∧ (e.wav k).length - 2048 ≤ last.length ∧
      (k = 0 → last = e.wav 0 ∧ samples vis = []) := by
  obtain ⟨s, outs, h, h0, s0, o, init, rfl, hb, hw, hp, hz⟩ := speech_run ha hf hk hroom
  refine ⟨init ++ [o], (joined s0.prev (e.wav k)).2, ?_, ?_, h.len, h.going, ?_, ?_⟩
  · rw [← hp]; exact last_call h h0
  · intro fuel hfu
    exact sVisits (last_call h h0) (by rw [h.len]; omega)
  · unfold joined
    split
    · unfold overlapAdd
      simp only [List.length_drop]
      omega
    · simp
  · intro hk0
    obtain ⟨rfl, rfl⟩ := hz hk0
    subst hk0
    refine ⟨rfl, ?_⟩
    show samples [o] = []
    unfold samples
    simp only [List.map_cons, List.map_nil, hw]
    rfl

end Verif.Stream
