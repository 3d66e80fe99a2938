import Verif.Stream.PropsSpeech

namespace Verif.Stream

variable {α : Type} [Field α] {e : Env α} {c : SCfg}

omit [Field α] in
theorem seg_get (x : Nat → α) (a n i : Nat) : (seg x a n)[i]? = if i < n then some (x (a + i)) else none := by
  unfold seg
  rw [List.getElem?_map]
  split
  · rename_i h; rw [List.getElem?_range h]; rfl
  · rename_i h; rw [List.getElem?_eq_none (by simpa using h)]; rfl

omit [Field α] in
theorem seg_add (x : Nat → α) (a n m : Nat) : seg x a (n + m) = seg x a n ++ seg x (a + n) m := by
  unfold seg
  rw [List.range_add, List.map_append, List.map_map]
  congr 1
  apply List.map_congr_left
  intro i _
  simp only [Function.comp]
  congr 1; omega

omit [Field α] in
theorem seg_len (x : Nat → α) (a n : Nat) : (seg x a n).length = n := by simp [seg]

/-- Cross-fading two pieces of the same signal gives the signal back. -/
theorem overlap_seg (x : Nat → α) {a n b m o : Nat} (hn : o ≤ n) (hm : o ≤ m) (hb : b + o = a + n) :
    overlapAdd (seg x a n) (seg x b m) o = (seg x a n, seg x (b + o) (m - o)) := by
  unfold overlapAdd
  dsimp only
  rw [seg_len, seg_len, show min (min o n) m = o by omega]
  have hsplit : seg x a n = seg x a (n - o) ++ seg x b o := by
    have := seg_add x a (n - o) o
    rw [show n - o + o = n by omega, show a + (n - o) = b by omega] at this
    exact this
  have hsplit2 : seg x b m = seg x b o ++ seg x (b + o) (m - o) := by
    have := seg_add x b o (m - o)
    rwa [show o + (m - o) = m by omega] at this
  congr 1
  · conv_rhs => rw [hsplit]
    congr 1
    · rw [hsplit, List.take_left' (seg_len x a (n - o))]
    · show _ = (List.range o).map (fun i => x (b + i))
      apply List.map_congr_left
      intro i hi
      rw [List.mem_range] at hi
      rw [List.getD_eq_getElem?_getD, List.getD_eq_getElem?_getD, seg_get, seg_get, if_pos (show n - o + i < n by omega),
        if_pos (show i < m by omega), show a + (n - o + i) = b + i by omega]
      simp only [Option.getD_some]
      ring
  · rw [hsplit2, List.drop_left' (seg_len x b o)]

/-- What is kept and handed out while the waveforms are pieces of one signal. -/
def Tracks (x : Nat → α) (a n : Nat → Nat) (k : Nat) (outs : List (Out α)) (prev : Option (List α)) : Prop :=
  (k = 0 ∧ prev = none ∧ outs = []) ∨
  (∃ j pa pn, k = j + 1 ∧ prev = some (seg x pa pn) ∧ 2048 ≤ pn ∧ pa + pn = a j + n j ∧ a 0 ≤ pa ∧
    samples outs = seg x (a 0) (pa - a 0))

theorem tracks_step {x : Nat → α} {a n : Nat → Nat} {K k : Nat} (hw : Windows e K x a n) (hk : k ≤ K) {outs : List (Out α)}
    {prev : Option (List α)} (h : Tracks x a n k outs prev) {o : Out α} (ho : o.wav = (joined prev (e.wav k)).1) :
    Tracks x a n (k + 1) (outs ++ [o]) (some (joined prev (e.wav k)).2) := by
  obtain ⟨w1, w2, _⟩ := hw k hk
  have hs : samples (outs ++ [o]) = samples outs ++ o.wav.getD [] := by
    unfold samples; simp
  right
  rcases h with ⟨rfl, rfl, rfl⟩ | ⟨j, pa, pn, rfl, rfl, h3, h4, h5, h6⟩
  · refine ⟨0, a 0, n 0, rfl, by rw [← w1]; rfl, by omega, rfl, le_refl _, ?_⟩
    rw [hs, ho, Nat.sub_self]; rfl
  · have hn := (hw j (by omega)).2.2 (by omega)
    have hov : overlapAdd (seg x pa pn) (e.wav (j + 1)) 2048 = (seg x pa pn, seg x (a (j + 1) + 2048) (n (j + 1) - 2048)) := by
      rw [w1]; exact overlap_seg x h3 (by omega) (by omega)
    refine ⟨j + 1, a (j + 1) + 2048, n (j + 1) - 2048, rfl, ?_, by omega, by omega, by omega, ?_⟩
    · show some (overlapAdd (seg x pa pn) (e.wav (j + 1)) 2048).2 = _
      rw [hov]
    · rw [hs, ho, h6]
      show seg x (a 0) (pa - a 0) ++ (overlapAdd (seg x pa pn) (e.wav (j + 1)) 2048).1 = _
      rw [hov]
      show seg x (a 0) (pa - a 0) ++ seg x pa pn = _
      have := seg_add x (a 0) (pa - a 0) pn
      rw [show a 0 + (pa - a 0) = pa by omega] at this
      rw [← this]
      congr 1
      omega

theorem tracks_running (ha : c.genAudio = true) (hf : Fits e) {x : Nat → α} {a m : Nat → Nat} {K : Nat} (hw : Windows e K x a m) :
    ∀ n, n ≤ 28 → n ≤ K → (∀ j, j < n → e.stop j = none) →
    ∃ s outs, After e c n s outs ∧ s.fin = false ∧ s.audio = 25 * n ∧ Tracks x a m n outs s.prev
  | 0, _, _, _ => ⟨SSt.init, [], after_zero, rfl, rfl, Or.inl ⟨rfl, rfl, rfl⟩⟩
  | n + 1, hn, hK, hs => by
    obtain ⟨s, outs, h, h1, h2, h3⟩ := tracks_running ha hf hw n (by omega) (by omega) (fun j hj => hs j (by omega))
    have hst : steps e n = 25 := by unfold steps; rw [hs n (by omega)]
    obtain ⟨s', o, g, g1, g2, g3, g4, _⟩ := after_succ ha hf h h1 (by rw [h2, hst]; omega)
    exact ⟨s', outs ++ [o], g, by rw [g3, hs n (by omega)]; rfl, by rw [g4, h2, hst]; omega,
      by rw [g2]; exact tracks_step hw (by omega) h3 g1⟩

/-- **C150.**  If the waveforms decoded in the calls are pieces of one signal that overlap by 2048 samples, the outputs of
the generator, joined in order, are exactly that signal: no gap, no repetition, no distortion at the seams. -/
theorem C150_audio_seamless (ha : c.genAudio = true) (hf : Fits e) {k : Nat} (hk : SpeechEnds e k)
    (hroom : 302 + (25 * k + steps e k) ≤ 1024) {x : Nat → α} {a n : Nat → Nat} (hw : Windows e k x a n) :
    ∃ outs, Produces (sAdvance e c) sEnd sCur sStart (outs.map some) ∧ outs.length = k + 2 ∧
      samples outs = seg x (a 0) (a k + n k - a 0) := by
  have := (steps_le (e := e) k).1
  obtain ⟨s, outs, h, h1, h2, h3⟩ := tracks_running ha hf hw k (by omega) (le_refl _) hk.1
  obtain ⟨s', o, g, g1, g2, g3, _⟩ := after_succ ha hf h h1 (by rw [h2]; exact hroom)
  have ht := tracks_step hw (le_refl k) h3 g1
  rw [← g2] at ht
  have hfin : s'.fin = true := by rw [g3]; exact Option.isSome_iff_ne_none.mpr hk.2
  refine ⟨(outs ++ [o]) ++ [⟨[], s'.prev, true⟩], last_call g hfin, by simp [h.len], ?_⟩
  rcases ht with ⟨h0, _⟩ | ⟨j, pa, pn, hj, hp, t1, t2, t3, t4⟩
  · omega
  · have hjk : j = k := by omega
    subst hjk
    have hs : samples ((outs ++ [o]) ++ [(⟨[], s'.prev, true⟩ : Out α)]) = samples (outs ++ [o]) ++ s'.prev.getD [] := by
      unfold samples; simp
    rw [hs, t4, hp]
    show seg x (a 0) (pa - a 0) ++ seg x pa pn = _
    have := seg_add x (a 0) (pa - a 0) pn
    rw [show a 0 + (pa - a 0) = pa by omega] at this
    rw [← this]
    congr 1
    omega

/-- For any two waveforms: nothing is lost or invented by the cross-fade but the samples of the overlap, which are
blended pairwise (weights from 1 to 0 and from 0 to 1 that add up to 1). -/
theorem C150_overlap_add (p w : List α) (o : Nat) :
    let m := min (min o p.length) w.length
    (overlapAdd p w o).1.length = p.length ∧ (overlapAdd p w o).2 = w.drop m ∧
    (∀ i, i < p.length - m → (overlapAdd p w o).1[i]? = p[i]?) ∧
    ∃ f : Nat → α, (1 < m → f 0 = 0) ∧ (1 < m → ((m - 1 : Nat) : α) ≠ 0 → f (m - 1) = 1) ∧
      ∀ i a b, i < m → p[p.length - m + i]? = some a → w[i]? = some b →
        (overlapAdd p w o).1[p.length - m + i]? = some ((1 - f i) * a + f i * b) := by
  intro m
  have hm : m ≤ p.length := by show min (min o p.length) w.length ≤ _; omega
  obtain ⟨den, hden⟩ : ∃ den : α, den = if 1 < m then ((m - 1 : Nat) : α) else 1 := ⟨_, rfl⟩
  have heq : overlapAdd p w o = (p.take (p.length - m) ++
      (List.range m).map (fun i : Nat => (1 - (i : α) / den) * p.getD (p.length - m + i) 0 + (i : α) / den * w.getD i 0), w.drop m) := by
    rw [hden]; rfl
  rw [heq]
  clear_value m
  refine ⟨by simp; omega, rfl, ?_, fun i => (i : α) / den, ?_, ?_, ?_⟩
  · intro i hi
    rw [List.getElem?_append_left (by simp; omega), List.getElem?_take_of_lt hi]
  · intro _; simp
  · intro h1 h2
    rw [hden, if_pos h1]
    exact div_self h2
  · intro i a b hi hpa hwb
    dsimp only
    rw [List.getElem?_append_right (by simp), List.length_take, show min (p.length - m) p.length = p.length - m by omega,
      show p.length - m + i - (p.length - m) = i by omega, List.getElem?_map, List.getElem?_range hi]
    simp [hpa, hwb, List.getD_eq_getElem?_getD]

/-- **C152, violated.**  If the speech model does not stop by itself in the first 28 calls and the first 22 tokens of the
29th (with `force_no_stop` it never does), the 29th call writes keys and values outside the cache of 1024 positions:
the limit `new_ids_len_ > 1024`, which should end the speech, counts only the audio tokens and not the 302 positions
before them. -/
theorem C152_cache_overflow_violated (ha : c.genAudio = true) (hf : Fits e) (hs : ∀ j, j < 28 → e.stop j = none)
    (h28 : ∀ j, e.stop 28 = some j → 22 ≤ j.val) : (sAdvance e c)^[28] sStart ≠ none ∧ (sAdvance e c)^[29] sStart = none := by
  obtain ⟨s, outs, h, h1, h2, _⟩ := after_running ha hf 28 (le_refl _) hs
  constructor
  · rw [h.state]; simp
  · rw [Function.iterate_succ_apply', h.state, sAdvance_live]
    obtain ⟨k1, k2, k3, k4, k5, k6, k7, k8, x, k9⟩ := fetch_keeps (e := e) (c := c) s
    obtain ⟨cache, hc⟩ := prefill_ok hf (fetch e c s).raw (fetch e c s).chunkIdx (fetch e c s).llmFin (fetch e c s).cache
    unfold next
    rw [if_neg (by simp [h1])]
    dsimp only
    rw [if_pos ha]
    unfold audioPart
    dsimp only
    rw [hc, Option.bind_some, if_neg]
    · rfl
    · rw [k6, k2, h.chunk, h2]
      have : 23 ≤ steps e 28 := by
        unfold steps
        cases hst : e.stop 28 with
        | none => simp
        | some j => have := h28 j hst; simp; omega
      omega

/-- Before that nothing goes wrong: no call before the 29th, and no call after the speech has ended within the cache,
leaves the buffers. -/
theorem C152_cache_partial (ha : c.genAudio = true) (hf : Fits e) (n : Nat) (hn : n ≤ 28) : (sAdvance e c)^[n] sStart ≠ none := by
  by_cases hs : ∀ j, j < n → e.stop j = none
  · obtain ⟨s, outs, h, _⟩ := after_running ha hf n hn hs
    rw [h.state]; simp
  · push Not at hs
    have hex : ∃ k, e.stop k ≠ none := by obtain ⟨j, _, hj⟩ := hs; exact ⟨j, hj⟩
    obtain ⟨k, hk, hmin⟩ : ∃ k, e.stop k ≠ none ∧ ∀ j, j < k → e.stop j = none := by
      classical
      exact ⟨Nat.find hex, Nat.find_spec hex, fun j hj => by simpa using Nat.find_min hex hj⟩
    have hkn : k < n := by
      obtain ⟨j, hj, hj2⟩ := hs
      by_contra hcon
      exact hj2 (hmin j (by omega))
    have := (steps_le (e := e) k).2
    obtain ⟨s, outs, h, h0, _⟩ := speech_run (c := c) ha hf (k := k) ⟨hmin, hk⟩ (by omega)
    have hl := last_call h h0
    -- after the end the iterator does not move
    have hst : ∃ s' o, (sAdvance e c)^[k + 2] sStart = some (s', true, o) := by
      refine ⟨{ s with prev := none }, ⟨[], s.prev, true⟩, ?_⟩
      rw [show k + 2 = (k + 1) + 1 from rfl, Function.iterate_succ_apply', h.state, sAdvance_live]
      unfold next
      rw [if_pos h0]; rfl
    obtain ⟨s', o, hst⟩ := hst
    have hfix : ∀ i, (sAdvance e c)^[i] (some (s', true, o)) = some (s', true, o) := by
      intro i
      induction i with
      | zero => rfl
      | succ i ih => rw [Function.iterate_succ_apply', ih]; rfl
    rcases Nat.lt_or_ge n (k + 2) with hlt | hge
    · have : n = k + 1 := by omega
      rw [this, h.state]; simp
    · rw [show n = (n - (k + 2)) + (k + 2) by omega, Function.iterate_add_apply, hst, hfix]
      simp

end Verif.Stream
