import Verif.Token.WordPiece
/-
The text clean-up in front of WordPiece (C45). Source: mllm/preprocessor/tokenizers/WordPiece.cpp L178-209,
L273-417. Strings are lists of code points here (`utf8::next`/`utf8::append` decode and encode one code
point); invalid UTF-8 makes `utf8::next` throw and is not modelled. `split_special_tokens` searches bytes in
the code; on valid UTF-8 an occurrence of the bytes is an occurrence of the code points.
-/
namespace Verif.Token

/-- `is_punctuation`, L334-341. -/
def isPunct (c : Nat) : Bool :=
  (33 ≤ c && c ≤ 47) || (58 ≤ c && c ≤ 64) || (91 ≤ c && c ≤ 96) || (123 ≤ c && c ≤ 126)

/-- `is_whitespace`, L343-353. -/
def isWs (c : Nat) : Bool :=
  (c == 0x20 || c == 0x09 || c == 0x0A || c == 0x0D) ||
  (c == 0x00A0 || c == 0x1680 || (0x2000 ≤ c && c ≤ 0x200A) || c == 0x202F || c == 0x205F || c == 0x3000)

/-- `is_control`, L355-360. -/
def isCtl (c : Nat) : Bool := c < 0x20 || (0x7F ≤ c && c ≤ 0x9F)

/-- `is_chinese_char`, L362-372. -/
def isCjk (c : Nat) : Bool :=
  (0x4E00 ≤ c && c ≤ 0x9FFF) || (0x3400 ≤ c && c ≤ 0x4DBF) || (0x20000 ≤ c && c ≤ 0x2A6DF) ||
  (0x2A700 ≤ c && c ≤ 0x2B73F) || (0x2B740 ≤ c && c ≤ 0x2B81F) || (0x2B820 ≤ c && c ≤ 0x2CEAF) ||
  (0xF900 ≤ c && c ≤ 0xFAFF) || (0x2F800 ≤ c && c ≤ 0x2FA1F)

/-- `clean_text`, L273-291. -/
def cleanText (t : List Nat) : List Nat :=
  t.flatMap fun c => if isCtl c then (if c = 0x09 ∨ c = 0x0A ∨ c = 0x0D then [0x20] else []) else [c]

/-- `lowercase`, L293-304 (ASCII only). -/
def lower (c : Nat) : Nat := if 65 ≤ c ∧ c ≤ 90 then c + 32 else c

/-- `tokenize_chinese_chars`, L313-330. -/
def padCjk (t : List Nat) : List Nat := t.flatMap fun c => if isCjk c then [0x20, c, 0x20] else [c]

/-- The loop of `whitespace_tokenize`, L402-417; `cur` is `current`. -/
def wsLoop (cur : List Nat) : List Nat → List (List Nat)
  | [] => if cur = [] then [] else [cur]
  | c :: r => if isWs c then (if cur = [] then [] else [cur]) ++ wsLoop [] r else wsLoop (cur ++ [c]) r

def wsTokenize (t : List Nat) : List (List Nat) := wsLoop [] t

/-- The loop of `split_on_punctuation`, L374-400. -/
def puLoop (cur : List Nat) : List Nat → List (List Nat)
  | [] => if cur = [] then [] else [cur]
  | c :: r =>
    if isPunct c then (if cur = [] then [] else [cur]) ++ [c] :: puLoop [] r else puLoop (cur ++ [c]) r

def puSplit (t : List Nat) : List (List Nat) := puLoop [] t

structure WpConfig where
  lowerCase : Bool
  cjk : Bool
  /-- added tokens marked special, in hash-map order -/
  special : List (List Nat)

/-- The loop body of `basic_tokenize` for one segment, L190-206. `strip_accents_fn` returns its argument. -/
def basicSeg (cfg : WpConfig) (seg : List Nat) : List (List Nat) :=
  if seg ∈ cfg.special then [seg]
  else (wsTokenize seg).flatMap fun t => puSplit (if cfg.lowerCase then t.map lower else t)

/-- `basic_tokenize`, L178-209. -/
def basicTokenize (cfg : WpConfig) (text : List Nat) : Option (List (List Nat)) :=
  let cleaned := if cfg.cjk then padCjk (cleanText text) else cleanText text
  if cfg.special = [] then some (basicSeg cfg cleaned)
  else (splitSpecial cfg.special (cleaned.length + 1) cleaned).map fun segs => segs.flatMap (basicSeg cfg)

/-- `WordPiece::tokenize`, L149-162: subwords of the UTF-8 bytes of every basic token. -/
def wpTokenize (cfg : WpConfig) (V : List (List Nat)) (cont unk : List Nat) (maxLen : Nat) (text : List Nat) :
    Option (List (List Nat)) :=
  (basicTokenize cfg text).map fun ts => ts.flatMap fun t => wordpiece V cont unk maxLen (encode t)

/-! ### Splitting at white space and punctuation -/

theorem wsLoop_run : ∀ (w cur r : List Nat), (∀ c ∈ w, isWs c = false) → wsLoop cur (w ++ r) = wsLoop (cur ++ w) r
  | [], cur, r, _ => by simp
  | c :: w, cur, r, h => by
    rw [List.cons_append, wsLoop, h c (by simp)]
    simp only [Bool.false_eq_true, if_false]
    rw [wsLoop_run w _ r (fun x hx => h x (by simp [hx]))]
    simp

theorem wsLoop_cur : ∀ (r cur : List Nat) (c : Nat) (b : List Nat), isWs c = true →
    wsLoop cur (r ++ c :: b) = wsLoop cur r ++ wsTokenize b
  | [], cur, c, b, h => by simp [wsLoop, h, wsTokenize]
  | x :: r, cur, c, b, h => by
    rw [List.cons_append, wsLoop, wsLoop, wsLoop_cur r [] c b h, wsLoop_cur r _ c b h]
    split_ifs <;> simp

/-- C45. White-space splitting, characterised: white space separates, and a run without white space is one
token. -/
theorem ws_tokenize_spec :
    wsTokenize [] = [] ∧ (∀ w, w ≠ [] → (∀ c ∈ w, isWs c = false) → wsTokenize w = [w]) ∧
    (∀ a c b, isWs c = true → wsTokenize (a ++ c :: b) = wsTokenize a ++ wsTokenize b) := by
  refine ⟨rfl, ?_, fun a c b h => wsLoop_cur a [] c b h⟩
  intro w h0 h
  have := wsLoop_run w [] [] h
  simp only [List.append_nil, List.nil_append] at this
  rw [wsTokenize, this]
  simp [wsLoop, h0]

theorem puLoop_run : ∀ (w cur r : List Nat), (∀ c ∈ w, isPunct c = false) → puLoop cur (w ++ r) = puLoop (cur ++ w) r
  | [], cur, r, _ => by simp
  | c :: w, cur, r, h => by
    rw [List.cons_append, puLoop, h c (by simp)]
    simp only [Bool.false_eq_true, if_false]
    rw [puLoop_run w _ r (fun x hx => h x (by simp [hx]))]
    simp

theorem puLoop_cur : ∀ (r cur : List Nat) (c : Nat) (b : List Nat), isPunct c = true →
    puLoop cur (r ++ c :: b) = puLoop cur r ++ [c] :: puSplit b
  | [], cur, c, b, h => by simp [puLoop, h, puSplit]
  | x :: r, cur, c, b, h => by
    rw [List.cons_append, puLoop, puLoop, puLoop_cur r [] c b h, puLoop_cur r _ c b h]
    split_ifs <;> simp

/-- C45. Punctuation splitting, characterised: every punctuation character is a token of its own, a run
without punctuation is one token. -/
theorem punct_split_spec :
    puSplit [] = [] ∧ (∀ w, w ≠ [] → (∀ c ∈ w, isPunct c = false) → puSplit w = [w]) ∧
    (∀ a c b, isPunct c = true → puSplit (a ++ c :: b) = puSplit a ++ [c] :: puSplit b) := by
  refine ⟨rfl, ?_, fun a c b h => puLoop_cur a [] c b h⟩
  intro w h0 h
  have := puLoop_run w [] [] h
  simp only [List.append_nil, List.nil_append] at this
  rw [puSplit, this]
  simp [puLoop, h0]

theorem wsLoop_tokens : ∀ (r cur : List Nat), (∀ c ∈ cur, isWs c = false) →
    (wsLoop cur r).flatten = cur ++ r.filter (fun c => !isWs c) ∧
    ∀ t ∈ wsLoop cur r, t ≠ [] ∧ ∀ c ∈ t, isWs c = false
  | [], cur, h => by
    unfold wsLoop
    split_ifs with h0
    · simp [h0]
    · simp only [List.flatten_singleton, List.filter_nil, List.append_nil, List.mem_singleton, true_and]
      rintro t rfl; exact ⟨h0, h⟩
  | c :: r, cur, h => by
    unfold wsLoop
    cases hc : isWs c with
    | true =>
      have ih := wsLoop_tokens r [] (by simp)
      simp only [if_true, List.flatten_append, ih.1, List.filter_cons, hc, Bool.not_true, Bool.false_eq_true,
        if_false]
      refine ⟨by split_ifs with h0 <;> simp [h0], ?_⟩
      intro t ht
      rcases List.mem_append.mp ht with ht | ht
      · split_ifs at ht with h0
        · simp at ht
        · simp at ht; subst ht; exact ⟨h0, h⟩
      · exact ih.2 t ht
    | false =>
      have ih := wsLoop_tokens r (cur ++ [c]) (by
        intro x hx
        rcases List.mem_append.mp hx with hx | hx
        · exact h x hx
        · simp at hx; subst hx; exact hc)
      simp only [Bool.false_eq_true, if_false, ih.1, List.filter_cons, hc]
      refine ⟨by simp, ih.2⟩

theorem puLoop_tokens : ∀ (r cur : List Nat), (∀ c ∈ cur, isPunct c = false) →
    (puLoop cur r).flatten = cur ++ r ∧
    ∀ t ∈ puLoop cur r, t ≠ [] ∧ ((∃ c, t = [c]) ∨ ∀ c ∈ t, isPunct c = false)
  | [], cur, h => by
    unfold puLoop
    split_ifs with h0
    · simp [h0]
    · simp only [List.flatten_singleton, List.append_nil, List.mem_singleton, true_and]
      rintro t rfl; exact ⟨h0, Or.inr h⟩
  | c :: r, cur, h => by
    unfold puLoop
    cases hc : isPunct c with
    | true =>
      have ih := puLoop_tokens r [] (by simp)
      simp only [if_true, List.flatten_append, List.flatten_cons, ih.1]
      refine ⟨by split_ifs with h0 <;> simp [h0], ?_⟩
      intro t ht
      rcases List.mem_append.mp ht with ht | ht
      · split_ifs at ht with h0
        · simp at ht
        · simp at ht; subst ht; exact ⟨h0, Or.inr h⟩
      · rcases List.mem_cons.mp ht with rfl | ht
        · exact ⟨by simp, Or.inl ⟨c, rfl⟩⟩
        · exact ih.2 t ht
    | false =>
      have ih := puLoop_tokens r (cur ++ [c]) (by
        intro x hx
        rcases List.mem_append.mp hx with hx | hx
        · exact h x hx
        · simp at hx; subst hx; exact hc)
      simp only [Bool.false_eq_true, if_false, ih.1]
      exact ⟨by simp, ih.2⟩

/-! ### The whole of basic tokenization -/

/-- The characters that survive: neither control characters nor white space. -/
def kept (c : Nat) : Bool := !isCtl c && !isWs c

theorem clean_kept (t : List Nat) : (cleanText t).filter (fun c => !isWs c) = t.filter kept := by
  induction t with
  | nil => rfl
  | cons c t ih =>
    have : cleanText (c :: t) = (if isCtl c then (if c = 0x09 ∨ c = 0x0A ∨ c = 0x0D then [0x20] else []) else [c])
        ++ cleanText t := rfl
    rw [this, List.filter_append, ih, List.filter_cons]
    cases hc : isCtl c with
    | true =>
      simp only [if_true, kept, hc, Bool.not_true, Bool.false_and, Bool.false_eq_true, if_false]
      split_ifs <;> simp [isWs]
    | false =>
      cases hw : isWs c <;> simp [kept, hc, hw]

theorem cjk_not_ws (c : Nat) (h : isCjk c = true) : isWs c = false := by
  simp only [isCjk, Bool.or_eq_true, Bool.and_eq_true, decide_eq_true_eq] at h
  simp only [isWs, Bool.or_eq_false_iff, Bool.and_eq_false_iff, beq_eq_false_iff_ne, decide_eq_false_iff_not]
  omega

theorem pad_kept (t : List Nat) : (padCjk t).filter (fun c => !isWs c) = t.filter (fun c => !isWs c) := by
  induction t with
  | nil => rfl
  | cons c t ih =>
    have : padCjk (c :: t) = (if isCjk c then [0x20, c, 0x20] else [c]) ++ padCjk t := rfl
    rw [this, List.filter_append, ih]
    cases hc : isCjk c with
    | true => simp [cjk_not_ws c hc, show isWs 32 = true from rfl]
    | false => simp [List.filter_cons]; split_ifs <;> rfl

/-- C45. Without special tokens: the basic tokens spell exactly the characters of the text that are neither
white space nor control characters, in order, lower-cased if asked; whatever the setting for Chinese. -/
theorem basic_tokenize_content (cfg : WpConfig) (hsp : cfg.special = []) (text : List Nat) :
    ∃ ts, basicTokenize cfg text = some ts ∧
      ts.flatten = (text.filter kept).map (if cfg.lowerCase then lower else id) := by
  unfold basicTokenize
  simp only [hsp, if_true]
  refine ⟨_, rfl, ?_⟩
  unfold basicSeg
  rw [if_neg (by simp [hsp])]
  have hfilter : (if cfg.cjk then padCjk (cleanText text) else cleanText text).filter (fun c => !isWs c)
      = text.filter kept := by
    split_ifs
    · rw [pad_kept, clean_kept]
    · exact clean_kept text
  generalize (if cfg.cjk then padCjk (cleanText text) else cleanText text) = cl at hfilter
  rw [← hfilter]
  have h1 := (wsLoop_tokens cl [] (by simp)).1
  simp only [List.nil_append] at h1
  rw [← h1, ← wsTokenize]
  generalize wsTokenize cl = ls
  induction ls with
  | nil => rfl
  | cons l ls ih =>
    rw [List.flatMap_cons, List.flatten_append, ih, List.flatten_cons, List.map_append]
    congr 1
    rw [puSplit, (puLoop_tokens _ [] (by simp)).1]
    split_ifs <;> simp

/-- C45. Every token that is not a special token is non-empty, has no white space, and is a single character
or free of punctuation. -/
theorem basic_tokenize_tokens (cfg : WpConfig) (text : List Nat) (ts : List (List Nat))
    (h : basicTokenize cfg text = some ts) (t : List Nat) (ht : t ∈ ts) (hns : t ∉ cfg.special) :
    t ≠ [] ∧ (∀ c ∈ t, isWs c = false) ∧ ((∃ c, t = [c]) ∨ ∀ c ∈ t, isPunct c = false) := by
  have hws_lower : ∀ c, isWs c = false → isWs (lower c) = false := by
    intro c hc
    unfold lower
    split_ifs with h1
    · simp only [isWs, Bool.or_eq_false_iff, Bool.and_eq_false_iff, beq_eq_false_iff_ne, decide_eq_false_iff_not]
      omega
    · exact hc
  have hseg : ∀ seg, ∀ t ∈ basicSeg cfg seg, t ∉ cfg.special →
      t ≠ [] ∧ (∀ c ∈ t, isWs c = false) ∧ ((∃ c, t = [c]) ∨ ∀ c ∈ t, isPunct c = false) := by
    intro seg t ht hns
    unfold basicSeg at ht
    by_cases h1 : seg ∈ cfg.special
    · rw [if_pos h1] at ht
      simp at ht; subst ht; exact absurd h1 hns
    · rw [if_neg h1] at ht
      obtain ⟨w, hw, htw⟩ := List.mem_flatMap.mp ht
      have h2 := (wsLoop_tokens seg [] (by simp)).2 w hw
      have h3 := puLoop_tokens (if cfg.lowerCase then w.map lower else w) [] (by simp)
      have h4 := h3.2 t (htw)
      refine ⟨h4.1, ?_, h4.2⟩
      intro c hc
      have hmem : c ∈ (if cfg.lowerCase then w.map lower else w) := by
        have : c ∈ (puLoop [] (if cfg.lowerCase then w.map lower else w)).flatten :=
          List.mem_flatten.mpr ⟨t, htw, hc⟩
        rw [h3.1] at this
        simpa using this
      split_ifs at hmem
      · obtain ⟨x, hx, rfl⟩ := List.mem_map.mp hmem
        exact hws_lower x (h2.2 x hx)
      · exact h2.2 c hmem
  unfold basicTokenize at h
  simp only at h
  split_ifs at h
  all_goals
    first
    | (simp only [Option.some.injEq] at h; subst h; exact hseg _ t ht hns)
    | (simp only [Option.map_eq_some_iff] at h
       obtain ⟨segs, -, rfl⟩ := h
       obtain ⟨seg, -, hts⟩ := List.mem_flatMap.mp ht
       exact hseg seg t hts hns)

/-- C45. Lower-casing is that of ASCII: letters `A`-`Z` are mapped, everything else is left alone. -/
theorem lower_ascii (c : Char) : lower c.toNat = c.toLower.toNat := by
  unfold lower Char.toLower
  by_cases h : 65 ≤ c.toNat ∧ c.toNat ≤ 90
  · have h1 : c.val ≥ 'A'.val ∧ c.val ≤ 'Z'.val := by
      rw [ge_iff_le, UInt32.le_iff_toNat_le, UInt32.le_iff_toNat_le]; exact h
    rw [if_pos h, dif_pos h1]
    show c.val.toNat + 32 = (c.val + 32).toNat
    rw [UInt32.toNat_add]
    have : c.val.toNat ≤ 90 := h.2
    simp; omega
  · have h1 : ¬ (c.val ≥ 'A'.val ∧ c.val ≤ 'Z'.val) := by
      rw [ge_iff_le, UInt32.le_iff_toNat_le, UInt32.le_iff_toNat_le]; exact h
    rw [if_neg h, dif_neg h1]

/-- C45. White space of any kind (also tabs and line breaks) separates tokens: what stands before it and
what stands after it are tokenized independently (no special tokens). -/
theorem basic_tokenize_separates (cfg : WpConfig) (hsp : cfg.special = []) (a b : List Nat) (c : Nat)
    (hc : isWs c = true) (ta tb : List (List Nat)) (ha : basicTokenize cfg a = some ta)
    (hb : basicTokenize cfg b = some tb) : basicTokenize cfg (a ++ c :: b) = some (ta ++ tb) := by
  have hclean : ∃ d, isWs d = true ∧ cleanText (a ++ c :: b) = cleanText a ++ d :: cleanText b := by
    have h1 : cleanText (a ++ c :: b) = cleanText a ++
        ((if isCtl c then (if c = 0x09 ∨ c = 0x0A ∨ c = 0x0D then [0x20] else []) else [c]) ++ cleanText b) := by
      simp [cleanText]
    by_cases hctl : isCtl c = true
    · have h2 : c = 0x09 ∨ c = 0x0A ∨ c = 0x0D := by
        simp only [isCtl, isWs, Bool.or_eq_true, Bool.and_eq_true, decide_eq_true_eq, beq_iff_eq] at hctl hc
        omega
      exact ⟨0x20, rfl, by rw [h1, if_pos hctl, if_pos h2]; rfl⟩
    · exact ⟨c, hc, by rw [h1, if_neg hctl]; rfl⟩
  obtain ⟨d, hd, hclean⟩ := hclean
  have hncjk : isCjk d = false := by
    cases h : isCjk d with
    | false => rfl
    | true => rw [cjk_not_ws d h] at hd; exact absurd hd (by simp)
  have hpad : padCjk (cleanText (a ++ c :: b)) = padCjk (cleanText a) ++ d :: padCjk (cleanText b) := by
    rw [hclean]
    simp [padCjk, hncjk]
  unfold basicTokenize at ha hb ⊢
  simp only [hsp, if_true, Option.some.injEq] at ha hb ⊢
  unfold basicSeg at ha hb ⊢
  rw [if_neg (by simp [hsp])] at ha hb ⊢
  subst ha hb
  rw [← List.flatMap_append]
  congr 1
  by_cases hcj : cfg.cjk = true
  · simp only [hcj, if_true]
    rw [hpad, (ws_tokenize_spec.2.2 _ d _ hd)]
  · simp only [if_neg hcj]
    rw [hclean, (ws_tokenize_spec.2.2 _ d _ hd)]

/-- C45. With Chinese-character handling on, every such character outside special tokens is a token of its
own (no special tokens configured). -/
theorem basic_tokenize_cjk (cfg : WpConfig) (hsp : cfg.special = []) (hcjk : cfg.cjk = true) (text : List Nat)
    (ts : List (List Nat)) (h : basicTokenize cfg text = some ts) (t : List Nat) (ht : t ∈ ts) (c : Nat) (hc : c ∈ t)
    (hcc : isCjk c = true) : t = [c] := by
  have hw : ∀ (r cur : List Nat), (∀ c ∈ cur, isCjk c = false) → ∀ t ∈ wsLoop cur (padCjk r), ∀ c ∈ t,
      isCjk c = true → t = [c] := by
    intro r
    induction r with
    | nil =>
      intro cur hcur t ht c hc hcc
      unfold padCjk at ht
      simp only [List.flatMap_nil, wsLoop] at ht
      split_ifs at ht
      · simp at ht
      · simp at ht; subst ht
        rw [hcur c hc] at hcc; exact absurd hcc (by simp)
    | cons x r ih =>
      intro cur hcur t ht c hc hcc
      have hpad : padCjk (x :: r) = (if isCjk x then [0x20, x, 0x20] else [x]) ++ padCjk r := rfl
      rw [hpad] at ht
      cases hx : isCjk x with
      | true =>
        rw [hx] at ht
        simp only [if_true, List.cons_append, List.nil_append, wsLoop, show isWs 0x20 = true from rfl,
          cjk_not_ws x hx, Bool.false_eq_true, if_false] at ht
        rcases List.mem_append.mp ht with ht | ht
        · split_ifs at ht
          · simp at ht
          · simp at ht; subst ht
            rw [hcur c hc] at hcc; exact absurd hcc (by simp)
        · rcases List.mem_append.mp ht with ht | ht
          · simp at ht; subst ht; simp at hc; subst hc; rfl
          · exact ih [] (by simp) t ht c hc hcc
      | false =>
        rw [hx] at ht
        simp only [Bool.false_eq_true, if_false, List.cons_append, List.nil_append, wsLoop] at ht
        split_ifs at ht
        · simp only [List.nil_append] at ht
          exact ih [] (by simp) t ht c hc hcc
        · rcases List.mem_append.mp ht with ht | ht
          · simp at ht; subst ht
            rw [hcur c hc] at hcc; exact absurd hcc (by simp)
          · exact ih [] (by simp) t ht c hc hcc
        · exact ih (cur ++ [x]) (by
            intro y hy
            rcases List.mem_append.mp hy with hy | hy
            · exact hcur y hy
            · simp at hy; subst hy; exact hx) t ht c hc hcc
  have hlow : ∀ x, isCjk (lower x) = true → lower x = x ∧ isCjk x = true := by
    intro x hx
    unfold lower at hx ⊢
    split_ifs at hx ⊢ with h1
    · simp only [isCjk, Bool.or_eq_true, Bool.and_eq_true, decide_eq_true_eq] at hx
      omega
    · exact ⟨rfl, hx⟩
  unfold basicTokenize at h
  simp only [hsp, if_true, hcjk, Option.some.injEq] at h
  subst h
  unfold basicSeg at ht
  rw [if_neg (by simp [hsp])] at ht
  obtain ⟨w, hwm, htw⟩ := List.mem_flatMap.mp ht
  have hpu := puLoop_tokens (if cfg.lowerCase then w.map lower else w) [] (by simp)
  have hcm : c ∈ (if cfg.lowerCase then w.map lower else w) := by
    have : c ∈ (puLoop [] (if cfg.lowerCase then w.map lower else w)).flatten :=
      List.mem_flatten.mpr ⟨t, htw, hc⟩
    rw [hpu.1] at this
    simpa using this
  have hwc : w = [c] := by
    split_ifs at hcm
    · obtain ⟨x, hx, hxe⟩ := List.mem_map.mp hcm
      rw [← hxe] at hcc
      have := hlow x hcc
      rw [← hxe, this.1]
      exact hw _ [] (by simp) w hwm x hx this.2
    · exact hw _ [] (by simp) w hwm c hcm hcc
  have hone : (if cfg.lowerCase then w.map lower else w) = [c] := by
    rw [hwc]
    have : lower c = c := by
      unfold lower
      split_ifs with h1
      · simp only [isCjk, Bool.or_eq_true, Bool.and_eq_true, decide_eq_true_eq] at hcc
        omega
      · rfl
    split_ifs <;> simp [this]
  rw [hone] at htw
  have hnp : isPunct c = false := by
    simp only [isCjk, Bool.or_eq_true, Bool.and_eq_true, decide_eq_true_eq] at hcc
    simp only [isPunct, Bool.or_eq_false_iff, Bool.and_eq_false_iff, decide_eq_false_iff_not]
    omega
  simp [puSplit, puLoop, hnp] at htw
  exact htw

/-- C45. A special token in the vocabulary, not longer than the limit, comes out unchanged. -/
theorem special_verbatim (V : List (List Nat)) (cont unk : List Nat) (maxLen : Nat) (t : List Nat) (h0 : t ≠ [])
    (hv : t ∈ V) (hlen : t.length ≤ maxLen) : wordpiece V cont unk maxLen t = [t] := by
  apply (wordpiece_spec V cont unk maxLen t h0 hlen).1
  have := Longest.cons (V := V) (cont := cont) [] t [] [] h0 (by simpa using hv)
    (by intro y hy hl; have := hy.length_le; simp at this; omega) (.nil cont)
  simpa using this

/-- C45 violated: a special token that contains a Chinese character is never found, because spaces are put
around the character first. -/
theorem special_cjk_violated :
    ∃ (cfg : WpConfig) (tok : List Nat), tok ∈ cfg.special ∧
      basicTokenize cfg tok = some [[91], [0x4E2D], [93]] :=
  ⟨⟨true, true, [[91, 0x4E2D, 93]]⟩, [91, 0x4E2D, 93], by simp, by decide +kernel⟩

/-- C45 violated: the limit on characters per word counts bytes. A word of 150 characters that is itself in
the vocabulary comes out as unknown with a limit of 200 characters. -/
theorem max_chars_violated :
    ∃ (w : List Nat), w.length = 150 ∧
      wpTokenize ⟨false, false, []⟩ [encode w] [35, 35] [91, 85, 93] 200 w = some [[91, 85, 93]] := by
  refine ⟨List.replicate 150 0x444, by simp, ?_⟩
  decide +kernel

/-- "[S]Ab, c" -/
example : basicTokenize ⟨true, true, [[91, 83, 93]]⟩ [91, 83, 93, 65, 98, 44, 32, 99]
    = some [[91, 83, 93], [97, 98], [44], [99]] := by
  decide +kernel

end Verif.Token
