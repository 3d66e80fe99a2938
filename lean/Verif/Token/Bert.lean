import Verif.Token.Basic
/-
The ChatTTS tokenizer (C183). Source: mllm/models/minicpm_o2_6/tokenization_chattts.cpp (`CT`) on top of WordPiece.cpp. Tokens are lists of bytes.
-/
namespace Verif.Token

/-! ### Model -/

/-- The two bytes `##`. -/
def hashes : List Nat := [35, 35]

/-- The loop body of `decode` and `detokenize`, CT L39-60 and L63-81. `skip`: the class, separator and padding tokens. -/
def wpDetokStep (skip : List (List Nat)) (res t : List Nat) : List Nat :=
  if t ∈ skip then res
  else if hashes <+: t then res ++ t.drop 2
  else (if res ≠ [] ∧ res.getLast? ≠ some 32 then res ++ [32] else res) ++ t

/-- `detokenize`, CT L63-81. -/
def wpDetok (skip : List (List Nat)) (ts : List (List Nat)) : List Nat := ts.foldl (wpDetokStep skip) []

/-- `vocab_` and `vocab_inverse_` after reading the entries in order, WordPiece.cpp L25-32 and L64-83: the later entry wins. -/
def vocabOf (entries : List (List Nat × Int)) (t : List Nat) : Option Int := (entries.reverse.find? fun e => decide (e.1 = t)).map Prod.snd

def inverseOf (entries : List (List Nat × Int)) (i : Int) : Option (List Nat) := (entries.reverse.find? fun e => decide (e.2 = i)).map Prod.fst

/-- The entries of a vocabulary file: line numbers, WordPiece.cpp L23-32. -/
def fileEntries (lines : List (List Nat)) : List (List Nat × Int) := lines.zipIdx.map fun p => (p.1, (p.2 : Int))

/-- `token2id`, `id2token`, WordPiece.cpp L164-172. -/
def token2id (entries : List (List Nat × Int)) (unk : List Nat) (t : List Nat) : Int := (vocabOf entries t).getD ((vocabOf entries unk).getD 0)

def id2token (entries : List (List Nat × Int)) (unk : List Nat) (i : Int) : List Nat := (inverseOf entries i).getD unk

/-- `ChatTTSTokenizer::encode`, CT L34-37. -/
def ttsEncode (cfg : WpConfig) (entries : List (List Nat × Int)) (unk : List Nat) (maxLen : Nat) (text : List Nat) : Option (List Int) :=
  (wpTokenize cfg (entries.map Prod.fst) hashes unk maxLen text).map fun ts => ts.map (token2id entries unk)

/-- `ChatTTSTokenizer::decode`, CT L39-60. -/
def ttsDecode (entries : List (List Nat × Int)) (unk : List Nat) (skip : List (List Nat)) (ids : List Int) : List Nat :=
  wpDetok skip (ids.map (id2token entries unk))

/-- `build_inputs_with_special_tokens`, CT L83-108. -/
def buildOne (cls sep : Int) (a : List Int) : List Int := cls :: a ++ [sep]

def buildPair (cls sep : Int) (a b : List Int) : List Int := cls :: a ++ [sep] ++ b ++ [sep]

/-- `create_token_type_ids_from_sequences`, CT L110-128. -/
def typeIds (a b : List Int) : List Int :=
  if b = [] then List.replicate (1 + a.length + 1) 0
  else List.replicate (1 + a.length + 1) 0 ++ List.replicate (b.length + 1) 1

/-! ### Proofs -/

theorem detok_cont (skip : List (List Nat)) (V : List (List Nat)) (hs : ∀ s ∈ skip, ¬ hashes <+: s) {p r : List Nat} {ts : List (List Nat)}
    (h : Longest V hashes p r ts) (hp : p = hashes) (res : List Nat) : ts.foldl (wpDetokStep skip) res = res ++ r := by
  induction h generalizing res with
  | nil => simp
  | cons p x r ts h1 h2 h3 h4 ih =>
    subst hp
    rw [List.foldl_cons, ih rfl]
    unfold wpDetokStep
    have hpre : hashes <+: hashes ++ x := List.prefix_append _ _
    rw [if_neg (fun hm => hs _ hm hpre), if_pos hpre, List.append_assoc]
    rfl

theorem detok_word (skip : List (List Nat)) (V : List (List Nat)) (hs : ∀ s ∈ skip, ¬ hashes <+: s) {w : List Nat} {ts : List (List Nat)}
    (h : Longest V hashes [] w ts) (h0 : w ≠ []) (hw : ∀ s ∈ skip, ¬ s <+: w) (hh : ¬ hashes <+: w) (res : List Nat) :
    ts.foldl (wpDetokStep skip) res = (if res ≠ [] ∧ res.getLast? ≠ some 32 then res ++ [32] else res) ++ w := by
  cases h with
  | nil => exact absurd rfl h0
  | cons _ x r ts h1 h2 h3 h4 =>
    rw [List.foldl_cons, detok_cont skip V hs h4 rfl]
    unfold wpDetokStep
    rw [List.nil_append]
    rw [if_neg (fun hm => hw _ hm (List.prefix_append _ _)), if_neg (fun hm => hh (hm.trans (List.prefix_append _ _))), List.append_assoc]

theorem detok_words (skip : List (List Nat)) (V : List (List Nat)) (unk : List Nat) (maxLen : Nat) (hs : ∀ s ∈ skip, ¬ hashes <+: s) :
    ∀ (ws : List (List Nat)) (res : List Nat), (res = [] ∨ res.getLast? ≠ some 32) →
      (∀ w ∈ ws, (∃ ts, Longest V hashes [] w ts) ∧ w.length ≤ maxLen ∧ w ≠ [] ∧ w.getLast? ≠ some 32 ∧ (∀ s ∈ skip, ¬ s <+: w) ∧ ¬ hashes <+: w) →
      (ws.flatMap (wordpiece V hashes unk maxLen)).foldl (wpDetokStep skip) res = List.intercalate [32] (if res = [] then ws else res :: ws)
  | [], res, _, _ => by
    split_ifs with h
    · simp [h, List.intercalate]
    · simp [List.intercalate]
  | w :: ws, res, hr, h => by
    obtain ⟨⟨ts, hts⟩, h1, h2, h3, h4, h5⟩ := h w (by simp)
    rw [List.flatMap_cons, List.foldl_append, (wordpiece_spec V hashes unk maxLen w h2 h1).1 ts hts, detok_word skip V hs hts h2 h4 h5]
    have hlast : ∀ pre : List Nat, (pre ++ w).getLast? ≠ some 32 := by
      intro pre
      rw [List.getLast?_append, Option.or_of_isSome (by rw [List.getLast?_isSome]; exact h2)]
      exact h3
    have key := detok_words skip V unk maxLen hs ws ((if res ≠ [] ∧ res.getLast? ≠ some 32 then res ++ [32] else res) ++ w) (Or.inr (hlast _)) fun w hw => h w (by simp [hw])
    rw [key, if_neg (by simp [h2])]
    by_cases h0 : res = []
    · subst h0
      simp
    · rw [if_pos ⟨h0, hr.resolve_left h0⟩, if_neg h0]
      cases ws <;> simp [List.intercalate, List.intersperse]

/-- **C183** Detokenizing: words, each cut into vocabulary pieces, come back with single spaces between them. -/
theorem C183_words (skip V : List (List Nat)) (unk : List Nat) (maxLen : Nat) (ws : List (List Nat)) (hs : ∀ s ∈ skip, ¬ hashes <+: s)
    (h : ∀ w ∈ ws, (∃ ts, Longest V hashes [] w ts) ∧ w.length ≤ maxLen ∧ w ≠ [] ∧ w.getLast? ≠ some 32 ∧ (∀ s ∈ skip, ¬ s <+: w) ∧ ¬ hashes <+: w) :
    wpDetok skip (ws.flatMap (wordpiece V hashes unk maxLen)) = List.intercalate [32] ws := by
  unfold wpDetok
  rw [detok_words skip V unk maxLen hs ws [] (Or.inl rfl) h, if_pos rfl]

/-! #### Bytes and code points -/

theorem enc1_cases (c : Nat) (hc : c ≤ 0x10FFFF) : (c < 128 ∧ enc1 c = [c]) ∨ (128 ≤ c ∧ enc1 c ≠ [] ∧ ∀ b ∈ enc1 c, 128 ≤ b) := by
  rw [enc1_eq]
  split_ifs with h1 h2 h3 h4
  · exact Or.inl ⟨by omega, rfl⟩
  all_goals
    first
    | exact Or.inr ⟨by omega, by simp, by intro b hb; simp at hb; omega⟩
    | omega

theorem encode_ascii {t : List Nat} (ht : ∀ c ∈ t, c ≤ 0x10FFFF) {b : Nat} (hb : b ∈ encode t) (h : b < 128) : b ∈ t := by
  unfold encode at hb
  obtain ⟨c, hc, hb⟩ := List.mem_flatMap.mp hb
  rcases enc1_cases c (ht c hc) with ⟨_, h2⟩ | ⟨_, _, h2⟩
  · rw [h2] at hb
    rw [List.mem_singleton.mp hb]
    exact hc
  · exact absurd (h2 b hb) (by omega)

theorem encode_nil {t : List Nat} (ht : ∀ c ∈ t, c ≤ 0x10FFFF) (h : t ≠ []) : encode t ≠ [] := by
  cases t with
  | nil => exact absurd rfl h
  | cons c r =>
    unfold encode
    rw [List.flatMap_cons]
    rcases enc1_cases c (ht c (by simp)) with ⟨_, h2⟩ | ⟨_, h2, _⟩
    · simp [h2]
    · simp [h2]

/-- What may be skipped: a token of two bytes or more that begins with a punctuation character, but not with `##`. -/
def Bracketed (s : List Nat) : Prop := ∃ c d r, s = c :: d :: r ∧ c < 128 ∧ isPunct c = true ∧ ¬ hashes <+: s

theorem not_prefix {t s : List Nat} (ht : ∀ c ∈ t, c ≤ 0x10FFFF) (hshape : (∃ c, t = [c]) ∨ ∀ c ∈ t, isPunct c = false) {c d : Nat} {r : List Nat}
    (hs : s = c :: d :: r) (hc : c < 128) (hp : isPunct c = true) : ¬ s <+: encode t := by
  rintro ⟨u, hu⟩
  subst hs
  have hmem : c ∈ encode t := by rw [← hu]; simp
  have h1 := encode_ascii ht hmem hc
  rcases hshape with ⟨x, rfl⟩ | h2
  · have : x = c := (List.mem_singleton.mp h1).symm
    subst this
    rcases enc1_cases x (ht x (by simp)) with ⟨_, h3⟩ | ⟨h3, _⟩
    · simp [encode, h3] at hu
    · omega
  · rw [h2 c h1] at hp
    exact absurd hp (by simp)

/-- **C183** Tokenizing and detokenizing a text: its words come back with single spaces between them, if each can be cut into vocabulary pieces and
the special tokens look like `[CLS]`. -/
theorem C183_text_partial (cfg : WpConfig) (V skip : List (List Nat)) (unk : List Nat) (maxLen : Nat) (text : List Nat) (bts : List (List Nat))
    (hb : basicTokenize cfg text = some bts) (hns : ∀ t ∈ bts, t ∉ cfg.special) (hcp : ∀ t ∈ bts, ∀ c ∈ t, c ≤ 0x10FFFF)
    (hv : ∀ t ∈ bts, (∃ ts, Longest V hashes [] (encode t) ts) ∧ (encode t).length ≤ maxLen) (hskip : ∀ s ∈ skip, Bracketed s) :
    (wpTokenize cfg V hashes unk maxLen text).map (wpDetok skip) = some (List.intercalate [32] (bts.map encode)) := by
  unfold wpTokenize
  rw [hb, Option.map_some, Option.map_some, Option.some.injEq]
  rw [show (bts.flatMap fun t => wordpiece V hashes unk maxLen (encode t)) = (bts.map encode).flatMap (wordpiece V hashes unk maxLen) by
    rw [List.flatMap_map]]
  apply C183_words
  · intro s hs
    obtain ⟨_, _, _, _, _, _, h⟩ := hskip s hs
    exact h
  · intro w hw
    obtain ⟨t, ht, rfl⟩ := List.mem_map.mp hw
    obtain ⟨h1, h2, h3⟩ := basic_tokenize_tokens cfg text bts hb t ht (hns t ht)
    refine ⟨(hv t ht).1, (hv t ht).2, encode_nil (hcp t ht) h1, ?_, ?_, not_prefix (hcp t ht) h3 rfl (by decide) (by decide)⟩
    · intro h
      have hm : 32 ∈ encode t := List.mem_of_getLast? h
      have := h2 32 (encode_ascii (hcp t ht) hm (by decide))
      exact absurd this (by decide)
    · intro s hs
      obtain ⟨c, d, r, e, hc, hp, _⟩ := hskip s hs
      exact not_prefix (hcp t ht) h3 e hc hp

theorem flat_intercalate (ws : List (List Nat)) (h : ∀ w ∈ ws, ∀ c ∈ w, c ≠ 32) : (List.intercalate [32] ws).filter (fun c => decide (c ≠ 32)) = ws.flatten := by
  have h0 : ∀ w ∈ ws, w.filter (fun c => decide (c ≠ 32)) = w := fun w hw => List.filter_eq_self.mpr fun c hc => by simpa using h w hw c hc
  induction ws with
  | nil => rfl
  | cons w ws ih =>
    have hw := h0 w (by simp)
    have hi := ih (fun w hw => h w (by simp [hw])) (fun w hw => h0 w (by simp [hw]))
    cases ws with
    | nil =>
      simp only [List.intercalate, List.intersperse_singleton, List.flatten_cons, List.flatten_nil, List.append_nil]
      exact hw
    | cons v ws =>
      have e : List.intercalate [32] (w :: v :: ws) = w ++ [32] ++ List.intercalate [32] (v :: ws) := by simp [List.intercalate, List.intersperse]
      rw [e, List.filter_append, List.filter_append, hw, hi, List.flatten_cons]
      simp

/-- **C183** Nothing is lost: without spaces the detokenized text is the text without white space and control characters, lower-cased if asked. -/
theorem C183_content_partial (cfg : WpConfig) (hsp : cfg.special = []) (V skip : List (List Nat)) (unk : List Nat) (maxLen : Nat) (text : List Nat)
    (hcp : ∀ c ∈ text, c ≤ 0x10FFFF) (hskip : ∀ s ∈ skip, Bracketed s)
    (hv : ∀ bts, basicTokenize cfg text = some bts → ∀ t ∈ bts, (∃ ts, Longest V hashes [] (encode t) ts) ∧ (encode t).length ≤ maxLen) :
    ∃ out, (wpTokenize cfg V hashes unk maxLen text).map (wpDetok skip) = some out ∧
      out.filter (fun c => decide (c ≠ 32)) = encode ((text.filter kept).map (if cfg.lowerCase then lower else id)) := by
  obtain ⟨bts, hb, hc⟩ := basic_tokenize_content cfg hsp text
  have hcp' : ∀ t ∈ bts, ∀ c ∈ t, c ≤ 0x10FFFF := by
    intro t ht c hct
    have : c ∈ bts.flatten := List.mem_flatten.mpr ⟨t, ht, hct⟩
    rw [hc] at this
    obtain ⟨x, hx, rfl⟩ := List.mem_map.mp this
    have h1 := hcp x (List.mem_of_mem_filter hx)
    split_ifs
    · unfold lower
      split_ifs <;> omega
    · exact h1
  refine ⟨_, C183_text_partial cfg V skip unk maxLen text bts hb (by simp [hsp]) hcp' (hv bts hb) hskip, ?_⟩
  rw [flat_intercalate, ← hc]
  · unfold encode
    rw [← List.flatMap_def]
    clear hb hc hcp' hv
    induction bts with
    | nil => rfl
    | cons t bts ih => rw [List.flatMap_cons, List.flatten_cons, List.flatMap_append, ih]
  · intro w hw c hcw h32
    obtain ⟨t, ht, rfl⟩ := List.mem_map.mp hw
    subst h32
    have h2 := (basic_tokenize_tokens cfg text bts hb t ht (by simp [hsp])).2.1
    exact absurd (h2 32 (encode_ascii (hcp' t ht) hcw (by decide))) (by decide)

/-! #### Identifiers -/

/-- **C183** A token of the vocabulary comes back from its identifier, if no two tokens have the same one. -/
theorem C183_ids_partial (entries : List (List Nat × Int)) (unk t : List Nat) (ht : t ∈ entries.map Prod.fst)
    (hinj : ∀ e ∈ entries, ∀ e' ∈ entries, e.2 = e'.2 → e.1 = e'.1) : id2token entries unk (token2id entries unk t) = t := by
  obtain ⟨e, he, rfl⟩ := List.mem_map.mp ht
  unfold token2id vocabOf
  cases h : entries.reverse.find? fun e' => decide (e'.1 = e.1) with
  | none =>
    have := List.find?_eq_none.mp h e (List.mem_reverse.mpr he)
    simp at this
  | some f =>
    rw [Option.map_some, Option.getD_some]
    have hf1 : f.1 = e.1 := by simpa using List.find?_some h
    have hf2 := List.mem_reverse.mp (List.mem_of_find?_eq_some h)
    unfold id2token inverseOf
    cases h' : entries.reverse.find? fun e' => decide (e'.2 = f.2) with
    | none =>
      have := List.find?_eq_none.mp h' f (List.mem_reverse.mpr hf2)
      simp at this
    | some g =>
      rw [Option.map_some, Option.getD_some, ← hf1]
      have hg1 : g.2 = f.2 := by simpa using List.find?_some h'
      exact hinj g (List.mem_reverse.mp (List.mem_of_find?_eq_some h')) f hf2 hg1

/-- **C183** A vocabulary file, whatever its lines: every token comes back from its identifier. -/
theorem C183_file_ids (lines : List (List Nat)) (unk t : List Nat) (ht : t ∈ lines) :
    id2token (fileEntries lines) unk (token2id (fileEntries lines) unk t) = t := by
  have hmem : ∀ e ∈ fileEntries lines, ∃ n : Nat, lines[n]? = some e.1 ∧ e.2 = n := by
    intro e he
    unfold fileEntries at he
    obtain ⟨p, hp, rfl⟩ := List.mem_map.mp he
    exact ⟨p.2, by rw [List.mk_mem_zipIdx_iff_getElem?] at hp; exact hp, rfl⟩
  apply C183_ids_partial
  · unfold fileEntries
    rw [List.map_map]
    obtain ⟨n, hn, e⟩ := List.mem_iff_getElem.mp ht
    exact List.mem_map.mpr ⟨(t, n), by rw [List.mk_mem_zipIdx_iff_getElem?, List.getElem?_eq_getElem hn, e], rfl⟩
  · intro e he e' he' h
    obtain ⟨n, h1, h2⟩ := hmem e he
    obtain ⟨m, h3, h4⟩ := hmem e' he'
    have : n = m := by omega
    subst this
    rw [h1] at h3
    exact Option.some.inj h3

/-- **C183** Encoding and decoding a text with the identifiers. -/
theorem C183_roundtrip_partial (cfg : WpConfig) (entries : List (List Nat × Int)) (skip : List (List Nat)) (unk : List Nat) (maxLen : Nat) (text : List Nat)
    (bts : List (List Nat)) (hb : basicTokenize cfg text = some bts) (hns : ∀ t ∈ bts, t ∉ cfg.special) (hcp : ∀ t ∈ bts, ∀ c ∈ t, c ≤ 0x10FFFF)
    (hv : ∀ t ∈ bts, (∃ ts, Longest (entries.map Prod.fst) hashes [] (encode t) ts) ∧ (encode t).length ≤ maxLen) (hskip : ∀ s ∈ skip, Bracketed s)
    (hinj : ∀ e ∈ entries, ∀ e' ∈ entries, e.2 = e'.2 → e.1 = e'.1) (hunk : unk ∈ entries.map Prod.fst) :
    (ttsEncode cfg entries unk maxLen text).map (ttsDecode entries unk skip) = some (List.intercalate [32] (bts.map encode)) := by
  rw [← C183_text_partial cfg (entries.map Prod.fst) skip unk maxLen text bts hb hns hcp hv hskip]
  unfold ttsEncode wpTokenize
  rw [hb]
  simp only [Option.map_some, Option.some.injEq]
  unfold ttsDecode
  congr 1
  rw [List.map_map]
  conv_rhs => rw [← List.map_id (bts.flatMap _)]
  apply List.map_congr_left
  intro t ht
  obtain ⟨b, _, ht⟩ := List.mem_flatMap.mp ht
  have : t ∈ entries.map Prod.fst := by
    rcases wordpiece_in_vocab _ _ _ _ _ t ht with h | h
    · exact h
    · rw [h]; exact hunk
  exact C183_ids_partial entries unk t this hinj

/-- **C183** Of two tokens with the same identifier (an added token may reuse one) the earlier comes back as the later. -/
theorem C183_ids_violated (entries : List (List Nat × Int)) (unk a b : List Nat) (i : Int) (hab : a ≠ b) (ha : ∀ e ∈ entries, e.1 ≠ a) :
    id2token ((a, i) :: entries ++ [(b, i)]) unk (token2id ((a, i) :: entries ++ [(b, i)]) unk a) = b := by
  have h1 : vocabOf ((a, i) :: entries ++ [(b, i)]) a = some i := by
    unfold vocabOf
    rw [show ((a, i) :: entries ++ [(b, i)]).reverse = (b, i) :: (entries.reverse ++ [(a, i)]) by simp, List.find?_cons_of_neg (by simpa using hab.symm), List.find?_append,
      List.find?_eq_none.mpr (by intro e he; simpa using ha e (List.mem_reverse.mp he))]
    simp
  unfold token2id
  rw [h1]
  unfold id2token inverseOf
  simp

/-- **C183** The inputs of a pair and their types have the same length if the second is not empty; the types are 0 up to and including the first
separator, then 1. One sequence: all 0. -/
theorem C183_types_partial (cls sep : Int) (a b : List Int) :
    (typeIds a []).length = (buildOne cls sep a).length ∧ (∀ x ∈ typeIds a [], x = 0) ∧
      (b ≠ [] → (typeIds a b).length = (buildPair cls sep a b).length ∧
        ∀ k, (k < a.length + 2 → (typeIds a b)[k]? = some 0) ∧ (a.length + 2 ≤ k → k < a.length + b.length + 3 → (typeIds a b)[k]? = some 1)) := by
  unfold typeIds buildOne buildPair
  refine ⟨by simp; omega, by simp, fun h => ⟨by rw [if_neg h]; simp; omega, fun k => ⟨fun hk => ?_, fun hk hk' => ?_⟩⟩⟩
  · rw [if_neg h, List.getElem?_append_left (by simp; omega), List.getElem?_replicate, if_pos (by omega)]
  · rw [if_neg h, List.getElem?_append_right (by simp; omega), List.getElem?_replicate, if_pos (by simp; omega)]

/-- **C183** A pair with an empty second: one type is missing. -/
theorem C183_types_violated (cls sep : Int) (a : List Int) : (typeIds a []).length + 1 = (buildPair cls sep a []).length := by
  unfold typeIds buildPair
  simp
  omega

/-- A text of two words, one of them cut in two; both special tokens skipped. -/
example : wpDetok [[91, 67, 93]] [[91, 67, 93], [104, 105], [97], [35, 35, 98], [91, 67, 93]] = [104, 105, 32, 97, 98] := by decide

example : Bracketed [91, 67, 93] := ⟨91, 67, [93], rfl, by decide, by decide, by decide⟩

end Verif.Token
