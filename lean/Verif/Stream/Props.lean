import Verif.Stream.PropsMore

/-!
# Streaming generation: concrete cases that meet the hypotheses (C146–C152)
-/
namespace Verif.Stream

/-! ### A speech tokenizer with bracketed markers -/

def marks : List (Str × Int) :=
  [(str "[Stts]", 1000), (str "[spk_emb]", 1001), (str "[Etts]", 1002), (str "[PAD]", 1003), (str "[Ptts]", 1004)]

/-- One token per marker and one per other byte; the number is how many bytes of a marker are left to skip. -/
def scan : Nat → Str → List Int
  | _, [] => []
  | k + 1, _ :: r => scan k r
  | 0, b :: r =>
    match marks.find? (fun w => w.1.isPrefixOf (b :: r)) with
    | some w => w.2 :: scan (w.1.length - 1) r
    | none => (b : Int) :: scan 0 r

theorem scan_succ (k b : Nat) (r : Str) : scan (k + 1) (b :: r) = scan k r := by rw [scan]

theorem scan_zero (b : Nat) (r : Str) : scan 0 (b :: r) =
    (match marks.find? (fun w => w.1.isPrefixOf (b :: r)) with
    | some w => w.2 :: scan (w.1.length - 1) r
    | none => (b : Int) :: scan 0 r) := by rw [scan]

theorem scan_skip : ∀ (x r : Str), scan x.length (x ++ r) = scan 0 r
  | [], r => rfl
  | b :: x, r => by
    show scan (x.length + 1) (b :: (x ++ r)) = _
    rw [scan_succ]
    exact scan_skip x r

theorem prefix_stop : ∀ (v x s : Str), 91 ∉ v → v.isPrefixOf (x ++ 91 :: s) = v.isPrefixOf x
  | [], x, s, _ => by simp
  | a :: v, [], s, h => by
    have : a ≠ 91 := by intro h'; apply h; simp [h']
    simp [List.isPrefixOf, this]
  | a :: v, b :: x, s, h => by
    simp only [List.cons_append, List.isPrefixOf]
    rw [prefix_stop v x s (by intro h'; apply h; simp [h'])]

theorem marks_shape : ∀ w ∈ marks, ∃ v, w.1 = 91 :: v ∧ 91 ∉ v := by
  intro w hw
  simp only [marks, List.mem_cons, List.not_mem_nil, or_false] at hw
  rcases hw with rfl | rfl | rfl | rfl | rfl <;> exact ⟨_, rfl, by decide +kernel⟩

theorem find_mark : ∀ (ws : List (Str × Int)), (∀ w ∈ ws, ∃ v, w.1 = 91 :: v ∧ 91 ∉ v) → ∀ (b : Nat) (x s : Str),
    ws.find? (fun w => w.1.isPrefixOf (b :: (x ++ 91 :: s))) = ws.find? (fun w => w.1.isPrefixOf (b :: x))
  | [], _, b, x, s => rfl
  | w :: ws, h, b, x, s => by
    obtain ⟨v, hv, hn⟩ := h w (by simp)
    have : w.1.isPrefixOf (b :: (x ++ 91 :: s)) = w.1.isPrefixOf (b :: x) := by
      rw [hv]; simp only [List.isPrefixOf]; rw [prefix_stop v x s hn]
    simp only [List.find?_cons, this]
    rw [find_mark ws (fun w hw => h w (by simp [hw])) b x s]

/-- Text before a marker is read as if it stood alone. -/
theorem scan_text : ∀ (k : Nat) (t s : Str), k ≤ t.length → scan k (t ++ 91 :: s) = scan k t ++ scan 0 (91 :: s)
  | k, [], s, hk => by
    have : k = 0 := by simpa using hk
    subst this
    simp [scan]
  | 0, b :: t, s, _ => by
    rw [List.cons_append, scan_zero, scan_zero b t, find_mark marks marks_shape]
    cases hf : marks.find? (fun w => w.1.isPrefixOf (b :: t)) with
    | none => simp only [List.cons_append]; rw [scan_text 0 t s (by omega)]
    | some w =>
      have hp := List.find?_some hf
      have hl : w.1.length ≤ (b :: t).length := (List.isPrefixOf_iff_prefix.mp hp).length_le
      simp only [List.cons_append]
      rw [scan_text _ t s (by simp at hl; omega)]
  | k + 1, b :: t, s, hk => by
    rw [List.cons_append, scan_succ, scan_succ]
    exact scan_text k t s (by simpa using hk)

theorem scan_mark {w : Str × Int} (hw : w ∈ marks) (r : Str) : scan 0 (w.1 ++ r) = w.2 :: scan 0 r := by
  have key : ∀ (n : Nat) (v : Str), w.1 = n :: v → marks.find? (fun u => u.1.isPrefixOf (w.1 ++ r)) = some w →
      scan 0 (w.1 ++ r) = w.2 :: scan 0 r := by
    intro n v hv hf
    rw [hv, List.cons_append] at hf ⊢
    rw [scan_zero, hf]
    simp only
    rw [hv]
    show w.2 :: scan v.length (v ++ r) = _
    rw [scan_skip]
  simp only [marks, List.mem_cons, List.not_mem_nil, or_false] at hw
  rcases hw with rfl | rfl | rfl | rfl | rfl <;> exact key _ _ rfl rfl

theorem scan_pads (n : Nat) (r : Str) : scan 0 ((List.replicate n (str "[PAD]")).flatten ++ r) = List.replicate n 1003 ++ scan 0 r := by
  induction n with
  | zero => rfl
  | succ n ih =>
    rw [List.replicate_succ, List.flatten_cons, List.append_assoc, scan_mark (w := (str "[PAD]", 1003)) (by simp [marks]), ih,
      List.replicate_succ, List.cons_append]

/-- The environment of the examples: text tokens 0, 1, …, token 99 the end, one or two letters per token (`wide`), the speech
stops at the fourth audio token of call `k`, and the waveforms are windows of the signal 0, 1, 2, …. -/
def env (nx : Nat → Int) (wide : Bool) (k : Option Nat) : Env ℚ where
  nx := nx
  d := fun t => if t = 99 then str "<|im_end|>" else if wide then [65, 97] else [65]
  eos := [99]
  enc := scan 0
  dec := fun ids => ids.map (fun _ => 65)
  stop := fun j => if some j = k then some 3 else none
  wav := fun j => seg (fun i => (i : ℚ)) (2048 * j) 4096

variable {nx : Nat → Int} {wide : Bool} {k : Option Nat}

theorem env_marks : Marks (env nx wide k) 1000 1001 1002 1003 1004 := by
  intro t ht
  have ht' : (scan 0 t).length < 300 := ht
  unfold prepare
  dsimp only
  rw [if_pos ht]
  dsimp only
  show scan 0 _ = _
  rw [List.append_assoc, List.append_assoc, List.append_assoc]
  rw [scan_mark (w := (str "[Stts]", 1000)) (by simp [marks]), scan_mark (w := (str "[spk_emb]", 1001)) (by simp [marks]), List.append_assoc]
  have h91 : ∀ r : Str, str "[Etts]" ++ r = 91 :: ([69, 116, 116, 115, 93] ++ r) := fun r => rfl
  rw [h91, scan_text 0 t _ (by omega), ← h91, scan_mark (w := (str "[Etts]", 1002)) (by simp [marks]), scan_pads]
  have : scan 0 (str "[Ptts]") = [1004] := by decide +kernel
  rw [this]
  simp only [List.cons_append, List.nil_append, List.append_assoc]
  rfl

theorem scan_plain (n : Nat) (s : Str) : scan 0 (List.replicate n 65 ++ 91 :: s) = List.replicate n 65 ++ scan 0 (91 :: s) := by
  induction n with
  | zero => rfl
  | succ n ih =>
    rw [List.replicate_succ, List.cons_append]
    have : marks.find? (fun w => w.1.isPrefixOf (65 :: (List.replicate n 65 ++ 91 :: s))) = none := by
      rw [List.find?_eq_none]
      intro w hw
      obtain ⟨v, hv, _⟩ := marks_shape w hw
      rw [hv]; simp [List.isPrefixOf]
    rw [scan_zero, this]
    simp only
    rw [ih, List.replicate_succ, List.cons_append]
    rfl

theorem env_fits : Fits (env nx wide k) := by
  intro t
  by_cases h : ((env nx wide k).enc t).length < 300
  · rw [env_marks t h]
    simp only [List.length_append, List.length_cons, List.length_nil, List.length_replicate]
    omega
  · have hp : (prepare (env nx wide k) t).1 = str "[Stts]" ++ str "[spk_emb]" ++ (env nx wide k).dec (((env nx wide k).enc t).take 300) ++ []
        ++ str "[Ptts]" := by
      unfold prepare; dsimp only; rw [if_neg h]
    rw [hp]
    have hd : (env nx wide k).dec (((env nx wide k).enc t).take 300) = List.replicate 300 65 := by
      show (((env nx wide k).enc t).take 300).map (fun _ => 65) = _
      rw [List.map_const']
      congr 1
      simp; omega
    rw [hd, List.append_nil, List.append_assoc, List.append_assoc]
    show 303 ≤ (scan 0 _).length
    rw [scan_mark (w := (str "[Stts]", 1000)) (by simp [marks]), scan_mark (w := (str "[spk_emb]", 1001)) (by simp [marks])]
    have : str "[Ptts]" = 91 :: [80, 116, 116, 115, 93] := rfl
    rw [this, scan_plain]
    have : scan 0 (91 :: [80, 116, 116, 115, 93]) = [1004] := by decide +kernel
    rw [this]
    simp only [List.length_cons, List.length_append, List.length_replicate, List.length_nil]
    omega

theorem env_plain : PlainEnd (env nx wide k).d (env nx wide k).eos := by
  intro t ht
  rw [List.mem_singleton.mp ht]
  exact ⟨str "<|im_end|", 62, rfl, by decide⟩

theorem env_text (t : Int) : (env nx wide k).d t ≠ [] := by
  show (if t = 99 then str "<|im_end|>" else if wide then [65, 97] else [65]) ≠ []
  split
  · decide +kernel
  · split <;> simp

theorem env_speech (j : Nat) : SpeechEnds (env nx wide (some j)) j := by
  constructor
  · intro i hi
    show (if some i = some j then some (3 : Fin 25) else none) = none
    rw [if_neg (by simp; omega)]
  · show (if some j = some j then some (3 : Fin 25) else none) ≠ none
    rw [if_pos rfl]; exact Option.some_ne_none _

theorem env_windows (j : Nat) : Windows (env nx wide k) j (fun i => (i : ℚ)) (fun i => 2048 * i) (fun _ => 4096) := by
  intro i _
  exact ⟨by simp only [env], by dsimp only; omega, fun _ => by dsimp only; omega⟩

/-- An answer longer than ten tokens. -/
def long : Nat → Int := fun i => i

theorem long_no_eos : ∀ i, i < 10 → (env long wide k).nx i ∉ (env long wide k).eos := by
  intro i hi h
  have : (i : Int) = 99 := List.mem_singleton.mp h
  omega

theorem long_answer : IsAnswer (env long wide k).nx (env long wide k).eos 10 ((List.range 10).map long) :=
  ⟨rfl, by decide, fun i hi => long_no_eos (wide := wide) (k := k) i (by simp at hi; omega), Or.inl rfl⟩

theorem long_plain (wide : Bool) (k : Option Nat) : ¬ ttsEos <:+: decodeTokens (env long wide k).d ((List.range 10).map long) := by
  have h : ∀ b ∈ decodeTokens (env long wide k).d ((List.range 10).map long), b ≠ 60 := by
    intro b hb
    unfold decodeTokens at hb
    obtain ⟨t, ht, hb⟩ := List.mem_flatMap.mp hb
    obtain ⟨i, hi, rfl⟩ := List.mem_map.mp ht
    rw [List.mem_range] at hi
    have hne : ¬ long i = 99 := by show ¬ (i : Int) = 99; omega
    have : (env long wide k).d (long i) = if wide then [65, 97] else [65] := by
      show (if long i = 99 then _ else _) = _
      rw [if_neg hne]
    rw [this] at hb
    split at hb <;> simp at hb <;> omega
  intro ⟨a, b, hab⟩
  apply h 60 _ rfl
  rw [← hab]
  apply List.mem_append_left
  apply List.mem_append_right
  decide +kernel

/-- C146: a long answer in chunks of five. -/
example : ∃ outs ts, Produces (It.advance ⟨12, 5, [99]⟩ long (env long true none).d) It.isEnd It.out It.begin outs ∧
    IsAnswer long [99] 12 ts ∧ (outs.map COut.text).flatten = decodeTokens (env long true none).d ts := by
  obtain ⟨outs, ts, h1, h2, h3, _⟩ := C146_chunks (c := ⟨12, 5, [99]⟩) (nx := long) (d := (env long true none).d)
    (by show (1 : Nat) ≤ 5; omega) (by show (1 : Nat) ≤ 12; omega) (env_plain (nx := long) (wide := true) (k := none))
  exact ⟨outs, ts, h1, h2, h3⟩

/-- C146, violated: "é" (C3 A9) in two tokens, then the end. -/
def splitTok : Int → List Nat := fun t => if t = 0 then [0xC3] else if t = 1 then [0xA9] else str "<|im_end|>"

example : ∃ outs, Produces (It.advance ⟨12, 5, [2]⟩ long (fun t => Token.encode (Token.decode (splitTok t)))) It.isEnd It.out It.begin outs ∧
    (outs.map COut.text).flatten = [] ++ decodeTokens (fun t => Token.encode (Token.decode (splitTok t))) [2] :=
  C146_split_character_violated (bytes := splitTok) (p := []) (q := [2]) (t := 0) (u := 1) (fun _ => rfl) (by show (1 : Nat) ≤ 5; omega)
    (by show (1 : Nat) ≤ 12; omega)
    (by
      intro t ht
      rw [List.mem_singleton.mp ht]
      exact ⟨str "<|im_end|", 62, by decide +kernel, by decide⟩)
    ⟨by decide, by decide, by
      intro i hi h
      have : (i : Int) = 2 := List.mem_singleton.mp h
      simp at hi; omega, Or.inr ⟨2, rfl, by decide⟩⟩
    (wc := 0xE9) (by decide) (by decide) (by decide +kernel) (by decide +kernel) (by decide +kernel)

/-- C147, C150: speech of three calls. -/
example : ∃ outs, Produces (sAdvance (env long true (some 2)) ⟨1024, true⟩) sEnd sCur sStart (outs.map some) ∧ outs.length = 4 ∧
    samples outs = seg (fun i => (i : ℚ)) 0 8192 := by
  obtain ⟨outs, h1, h2, h3⟩ := C150_audio_seamless (c := ⟨1024, true⟩) rfl env_fits (env_speech (nx := long) (wide := true) 2) (by decide +kernel) (env_windows 2)
  exact ⟨outs, h1, h2, h3⟩

example : ∃ vis last, Produces (sAdvance (env long true (some 0)) ⟨1024, true⟩) sEnd sCur sStart ((vis ++ [(⟨[], some last, true⟩ : Out ℚ)]).map some) ∧
    samples vis = [] ∧ last = seg (fun i => (i : ℚ)) 0 4096 := by
  obtain ⟨vis, last, h1, _, _, _, _, h2⟩ := C147_speech_loop_violated (c := ⟨1024, true⟩) rfl env_fits (env_speech (nx := long) (wide := true) 0)
    (by decide +kernel)
  refine ⟨vis, last, h1, (h2 rfl).2, ?_⟩
  rw [(h2 rfl).1]
  simp only [env, Nat.mul_zero]

/-- C148: the limit, short speech, text only. -/
example (m : Nat) := C148_limit_violated (e := env long true (some 2)) env_fits env_plain long_no_eos (long_plain true (some 2)) (env_speech 2)
  (by decide) (by decide +kernel) m

example := C148_short_speech_violated (e := env long false (some 0)) (c := ⟨1024, true⟩) rfl env_fits env_plain env_text long_no_eos
  (long_plain false (some 0)) (by decide +kernel)

def shortNx : Nat → Int := fun i => if i = 2 then 99 else i

example (n : Nat) : visits (sAdvance (env shortNx true none) ⟨1024, false⟩) sEnd sCur n (sBegin (env shortNx true none) ⟨1024, false⟩) = none :=
  C148_text_only_endless_violated rfl env_plain (ts := [0, 1, 99])
    ⟨by decide, by decide, by
      intro i hi h
      have hi' : i < 2 := by simp at hi; omega
      have : (if i = 2 then (99 : Int) else i) = 99 := List.mem_singleton.mp h
      rw [if_neg (by omega)] at this
      omega, Or.inr ⟨2, rfl, by decide +kernel⟩⟩ (by decide) n

/-- Token 5 is the marker; the tokens 8 and 9 come after it in a later chunk. -/
def markedEnv : Env ℚ := { env long true (some 1) with d := fun t => if t = 5 then ttsEos else if t = 99 then str "<|im_end|>" else [65 + t.toNat] }

example : ∃ vis : List (Out ℚ), (∀ fuel, 3 ≤ fuel →
      visits (sAdvance markedEnv ⟨1024, true⟩) sEnd sCur fuel (sBegin markedEnv ⟨1024, true⟩) = some (vis.map some)) ∧
    (vis.map Out.text).flatten = [65, 66, 67] ++ [68, 69] ++ [73, 74] :=
  C148_after_marker_violated (e := markedEnv) (c := ⟨1024, true⟩) rfl (env_fits (nx := long) (wide := true) (k := some 1))
    (o1 := ⟨[65, 66, 67], false, some 3⟩) (o2 := ⟨[68, 69] ++ ttsEos ++ [71, 72], false, some 8⟩) (o3 := ⟨[73, 74], true, some 10⟩)
    (x := [68, 69]) (y := [71, 72]) (by unfold Produces; decide +kernel) (by decide +kernel) rfl (by decide +kernel) (by decide +kernel)
    ⟨rfl, rfl⟩ rfl (by decide +kernel)

/-- C149: two letters per token, so the first call knows sixteen speech tokens. -/
theorem wide_first : textAfter (env long true none) ⟨1024, true⟩ 1 = some (List.replicate 8 [65, 97]).flatten := by decide +kernel

example (n : Nat) (hn : n ≤ 27) : ∃ T, textAfter (env long true none) ⟨1024, true⟩ (n + 1) = some T ∧
    ∀ p, p < (script (env long true none) 1000 1001 1002 T).length → p < 10 * (n + 1) + 2 →
      cacheAfter (env long true none) ⟨1024, true⟩ (n + 1) p = (script (env long true none) 1000 1001 1002 T)[p]? := by
  obtain ⟨T, h1, _, h2⟩ := C149_cache_partial (e := env long true none) (c := ⟨1024, true⟩) rfl env_fits env_plain long_answer
    (long_plain true none) env_marks wide_first (by decide +kernel) (by decide +kernel) (Or.inr ⟨by decide +kernel, by decide +kernel⟩) n hn
    (fun _ _ => rfl)
  exact ⟨T, h1, h2⟩

/-- C149, violated: one letter per token: eight speech tokens in the first call, ten in the second. -/
theorem narrow_first : textAfter (env long false none) ⟨1024, true⟩ 1 = some (List.replicate 8 65) := by decide +kernel

example (n : Nat) (h1 : 1 ≤ n) (hn : n ≤ 27) : cacheAfter (env long false none) ⟨1024, true⟩ (n + 1) 10 = some 1002 ∧
    (script (env long false none) 1000 1001 1002 (decodeTokens (env long false none).d ((List.range 10).map long)))[10]? = some 65 :=
  ⟨(C149_stale_violated (e := env long false none) (c := ⟨1024, true⟩) rfl env_fits env_plain long_answer
    (long_plain false none) env_marks narrow_first (by decide +kernel) (by decide +kernel) n h1 hn (fun _ _ => rfl)).2.1, by decide +kernel⟩

/-- C152: speech that never stops. -/
example : (sAdvance (env long true none) ⟨1024, true⟩)^[29] sStart = none :=
  (C152_cache_overflow_violated (e := env long true none) rfl env_fits (fun _ _ => rfl) (fun _ h => (by cases h))).2

end Verif.Stream
