import Verif.Token.Unicode
import Verif.Token.BPE
import Verif.Token.TrieProps
/-
The Qwen3 tokenizer (C43, C44). Source: mllm/models/qwen3/tokenization_qwen3.hpp. (The Qwen2-VL, Qwen2.5
and MiniCPM tokenizers in the repository repeat the same functions.)
A wide string is a list of character codes.
-/
namespace Verif.Token

/-- `preprocessor::isLetter`, `isDigit` and `std::iswspace`: they depend on the process locale, so they
are parameters. -/
structure CharClass where
  letter : Nat → Bool
  digit : Nat → Bool
  space : Nat → Bool

/-- `str[pos] == L'\r' || str[pos] == L'\n'` -/
def isNl (c : Nat) : Bool := c == 13 || c == 10

/-- `[^\s\p{L}\p{N}]` as tested at L78-83. -/
def CharClass.symbol (k : CharClass) (c : Nat) : Bool := !k.space c && !k.letter c && !k.digit c

/-- L23: `'s 't 're 've 'm 'll 'd` -/
def contractions : List (List Nat) :=
  [[39, 115], [39, 116], [39, 114, 101], [39, 118, 101], [39, 109], [39, 108, 108], [39, 100]]

/-- Pattern 1, L22-30. The functions take the string from `pos` on and return the match and the rest. -/
def pat1 (r : List Nat) : Option (List Nat × List Nat) :=
  (contractions.find? (·.isPrefixOf r)).map fun c => (c, r.drop c.length)

/-- One or more letters, L45-50. -/
def letters (k : CharClass) (pre r : List Nat) : Option (List Nat × List Nat) :=
  if r.takeWhile k.letter = [] then none else some (pre ++ r.takeWhile k.letter, r.dropWhile k.letter)

/-- Pattern 2, L32-58. -/
def pat2 (k : CharClass) : List Nat → Option (List Nat × List Nat)
  | [] => none
  | c :: r => if !k.letter c && !k.digit c && !isNl c then letters k [c] r else letters k [] (c :: r)

/-- Pattern 3, L60-65. -/
def pat3 (k : CharClass) : List Nat → Option (List Nat × List Nat)
  | [] => none
  | c :: r => if k.digit c then some ([c], r) else none

/-- Symbols followed by newlines, L77-92. -/
def symbols (k : CharClass) (pre r : List Nat) : Option (List Nat × List Nat) :=
  if r.takeWhile k.symbol = [] then none
  else some (pre ++ r.takeWhile k.symbol ++ (r.dropWhile k.symbol).takeWhile isNl,
    (r.dropWhile k.symbol).dropWhile isNl)

/-- Pattern 4, L67-98. -/
def pat4 (k : CharClass) : List Nat → Option (List Nat × List Nat)
  | [] => none
  | c :: r => if c = 32 then symbols k [c] r else symbols k [] (c :: r)

/-- Pattern 5, L100-111. -/
def pat5 (k : CharClass) (r : List Nat) : Option (List Nat × List Nat) :=
  match r.dropWhile k.space with
  | [] => none
  | c :: t => if isNl c then some (r.takeWhile k.space ++ (c :: t).takeWhile isNl, (c :: t).dropWhile isNl) else none

/-- Pattern 6, L113-124. -/
def pat6 (k : CharClass) : List Nat → Option (List Nat × List Nat)
  | [] => none
  | c :: r =>
    if k.space c then
      match (c :: r).dropWhile k.space with
      | [] => some ((c :: r).takeWhile k.space, [])
      | d :: t => if k.space d then some ((c :: r).takeWhile k.space, d :: t) else none
    else none

/-- Pattern 7, L126-132. -/
def pat7 (k : CharClass) : List Nat → Option (List Nat × List Nat)
  | [] => none
  | c :: r => if k.space c then some ((c :: r).takeWhile k.space, (c :: r).dropWhile k.space) else none

/-- `qwen3TokenizerMatchPattern`, L19-135. -/
def matchPattern (k : CharClass) (r : List Nat) : Option (List Nat × List Nat) :=
  ((((((pat1 r).or (pat2 k r)).or (pat3 k r)).or (pat4 k r)).or (pat5 k r)).or (pat6 k r)).or (pat7 k r)

/-- The loop of `qwen3Regex`, L137-149, for a matcher: a position where nothing matches is skipped. -/
def findAll (m : List Nat → Option (List Nat × List Nat)) : Nat → List Nat → List (List Nat)
  | 0, _ => []
  | _ + 1, [] => []
  | n + 1, c :: r =>
    match m (c :: r) with
    | some (x, r') => x :: findAll m n r'
    | none => findAll m n r

/-- `qwen3Regex` on a wide string. -/
def qwenRegex (k : CharClass) (text : List Nat) : List (List Nat) := findAll (matchPattern k) text.length text

/-! ### C43: pre-tokenization loses nothing -/

theorem isPrefixOf_drop {c r : List Nat} (h : c.isPrefixOf r = true) : c ++ r.drop c.length = r := by
  obtain ⟨t, rfl⟩ := List.isPrefixOf_iff_prefix.mp h
  simp

theorem pat1_split {r x r' : List Nat} (h : pat1 r = some (x, r')) : x ++ r' = r ∧ x ≠ [] := by
  unfold pat1 at h
  cases hf : contractions.find? (·.isPrefixOf r) with
  | none => rw [hf] at h; simp at h
  | some c =>
    rw [hf] at h
    simp only [Option.map_some, Option.some.injEq, Prod.mk.injEq] at h
    obtain ⟨rfl, rfl⟩ := h
    have hm := List.mem_of_find?_eq_some hf
    refine ⟨isPrefixOf_drop (by simpa using List.find?_some hf), ?_⟩
    intro h0; subst h0
    simp [contractions] at hm

theorem letters_split {k : CharClass} {pre r x r' : List Nat} (h : letters k pre r = some (x, r')) :
    x ++ r' = pre ++ r ∧ x ≠ [] := by
  unfold letters at h
  split_ifs at h with h1
  simp only [Option.some.injEq, Prod.mk.injEq] at h
  obtain ⟨rfl, rfl⟩ := h
  simp [h1]

theorem symbols_split {k : CharClass} {pre r x r' : List Nat} (h : symbols k pre r = some (x, r')) :
    x ++ r' = pre ++ r ∧ x ≠ [] := by
  unfold symbols at h
  split_ifs at h with h1
  simp only [Option.some.injEq, Prod.mk.injEq] at h
  obtain ⟨rfl, rfl⟩ := h
  refine ⟨?_, by simp [h1]⟩
  simp only [List.append_assoc, List.takeWhile_append_dropWhile]

theorem pat2_split {k : CharClass} {r x r' : List Nat} (h : pat2 k r = some (x, r')) : x ++ r' = r ∧ x ≠ [] := by
  cases r with
  | nil => simp [pat2] at h
  | cons c r =>
    unfold pat2 at h
    simp only at h
    split_ifs at h
    · exact letters_split h
    · exact letters_split h

theorem pat3_split {k : CharClass} {r x r' : List Nat} (h : pat3 k r = some (x, r')) : x ++ r' = r ∧ x ≠ [] := by
  cases r with
  | nil => simp [pat3] at h
  | cons c r =>
    unfold pat3 at h
    simp only at h
    split_ifs at h
    simp only [Option.some.injEq, Prod.mk.injEq] at h
    obtain ⟨rfl, rfl⟩ := h
    simp

theorem pat4_split {k : CharClass} {r x r' : List Nat} (h : pat4 k r = some (x, r')) : x ++ r' = r ∧ x ≠ [] := by
  cases r with
  | nil => simp [pat4] at h
  | cons c r =>
    unfold pat4 at h
    simp only at h
    split_ifs at h
    · exact symbols_split h
    · exact symbols_split h

theorem pat5_split {k : CharClass} {r x r' : List Nat} (h : pat5 k r = some (x, r')) : x ++ r' = r ∧ x ≠ [] := by
  unfold pat5 at h
  cases hd : r.dropWhile k.space with
  | nil => rw [hd] at h; simp at h
  | cons c t =>
    rw [hd] at h
    simp only at h
    split_ifs at h with hn
    simp only [Option.some.injEq, Prod.mk.injEq] at h
    obtain ⟨rfl, rfl⟩ := h
    refine ⟨?_, by simp [hn]⟩
    rw [List.append_assoc, List.takeWhile_append_dropWhile, ← hd, List.takeWhile_append_dropWhile]

theorem pat6_split {k : CharClass} {r x r' : List Nat} (h : pat6 k r = some (x, r')) : x ++ r' = r ∧ x ≠ [] := by
  cases r with
  | nil => simp [pat6] at h
  | cons c r =>
    unfold pat6 at h
    simp only at h
    split_ifs at h with hs
    cases hd : (c :: r).dropWhile k.space with
    | nil =>
      rw [hd] at h
      simp only [Option.some.injEq, Prod.mk.injEq] at h
      obtain ⟨rfl, rfl⟩ := h
      refine ⟨?_, by simp [hs]⟩
      rw [← hd, List.takeWhile_append_dropWhile]
    | cons d t =>
      rw [hd] at h
      simp only at h
      split_ifs at h
      simp only [Option.some.injEq, Prod.mk.injEq] at h
      obtain ⟨rfl, rfl⟩ := h
      refine ⟨?_, by simp [hs]⟩
      rw [← hd, List.takeWhile_append_dropWhile]

theorem pat7_split {k : CharClass} {r x r' : List Nat} (h : pat7 k r = some (x, r')) : x ++ r' = r ∧ x ≠ [] := by
  cases r with
  | nil => simp [pat7] at h
  | cons c r =>
    unfold pat7 at h
    simp only at h
    split_ifs at h with hs
    simp only [Option.some.injEq, Prod.mk.injEq] at h
    obtain ⟨rfl, rfl⟩ := h
    exact ⟨by rw [List.takeWhile_append_dropWhile], by simp [hs]⟩

theorem matchPattern_split {k : CharClass} {r x r' : List Nat} (h : matchPattern k r = some (x, r')) :
    x ++ r' = r ∧ x ≠ [] := by
  unfold matchPattern at h
  simp only [Option.or_eq_some_iff] at h
  rcases h with (((((h | ⟨-, h⟩) | ⟨-, h⟩) | ⟨-, h⟩) | ⟨-, h⟩) | ⟨-, h⟩) | ⟨-, h⟩
  · exact pat1_split h
  · exact pat2_split h
  · exact pat3_split h
  · exact pat4_split h
  · exact pat5_split h
  · exact pat6_split h
  · exact pat7_split h

/-- At every position some pattern matches. -/
theorem matchPattern_total {k : CharClass} (hs : k.space 32 = true) (c : Nat) (r : List Nat) :
    matchPattern k (c :: r) ≠ none := by
  intro h
  unfold matchPattern at h
  simp only [Option.or_eq_none_iff] at h
  obtain ⟨⟨⟨⟨⟨⟨-, h2⟩, h3⟩, h4⟩, -⟩, -⟩, h7⟩ := h
  have hsp : k.space c = false := by
    cases hc : k.space c with
    | false => rfl
    | true => simp [pat7, hc] at h7
  have hd : k.digit c = false := by
    cases hc : k.digit c with
    | false => rfl
    | true => simp [pat3, hc] at h3
  have hl : k.letter c = false := by
    cases hc : k.letter c with
    | false => rfl
    | true => simp [pat2, letters, hc] at h2
  have hne : c ≠ 32 := by rintro rfl; rw [hs] at hsp; exact absurd hsp (by simp)
  simp [pat4, hne, symbols, CharClass.symbol, hsp, hd, hl] at h4

theorem findAll_flatten {m : List Nat → Option (List Nat × List Nat)}
    (hsplit : ∀ r x r', m r = some (x, r') → x ++ r' = r ∧ x ≠ []) (htot : ∀ c r, m (c :: r) ≠ none) :
    ∀ (n : Nat) (r : List Nat), r.length ≤ n → (findAll m n r).flatten = r ∧ ∀ x ∈ findAll m n r, x ≠ []
  | 0, r, h => by
    have : r = [] := List.length_eq_zero_iff.mp (by omega)
    subst this; simp [findAll]
  | n + 1, [], _ => by simp [findAll]
  | n + 1, c :: r, h => by
    unfold findAll
    cases hm : m (c :: r) with
    | none => exact absurd hm (htot c r)
    | some y =>
      obtain ⟨x, r'⟩ := y
      have hs := hsplit _ _ _ hm
      have hlen : r'.length ≤ n := by
        have h1 := congrArg List.length hs.1
        have h2 : x.length ≠ 0 := by simpa using hs.2
        simp only [List.length_append, List.length_cons] at h1 h
        omega
      have ih := findAll_flatten hsplit htot n r' hlen
      simp only [List.flatten_cons, ih.1, hs.1, List.mem_cons, true_and]
      rintro y (rfl | hy)
      · exact hs.2
      · exact ih.2 y hy

/-- C43. Pre-tokenization drops, adds and reorders nothing: the pieces, none empty, spell the text. For
every text and every locale (`iswspace(L' ')` is true in all of them). -/
theorem qwen_regex_lossless (k : CharClass) (hs : k.space 32 = true) (text : List Nat) :
    (qwenRegex k text).flatten = text ∧ ∀ x ∈ qwenRegex k text, x ≠ [] :=
  findAll_flatten (fun _ _ _ h => matchPattern_split h) (matchPattern_total hs) _ _ le_rfl

/-! ### C44: the documented regular expression -/

/-- Regular expressions as in the comment at L16-18: classes, greedy repetition of a class, option,
alternation, negative lookahead of one character. -/
inductive Re where
  | cls (p : Nat → Bool)
  | many (p : Nat → Bool)
  | opt (a : Re)
  | seq (a b : Re)
  | alt (a b : Re)
  | notAhead (p : Nat → Bool)

/-- Backtracking semantics: all ways to match at the start of `r` as (match, rest), in the order in
which a backtracking engine tries them. -/
def Re.run : Re → List Nat → List (List Nat × List Nat)
  | .cls _, [] => []
  | .cls p, c :: r => if p c then [([c], r)] else []
  | .many p, r => (List.range ((r.takeWhile p).length + 1)).reverse.map fun i => (r.take i, r.drop i)
  | .opt a, r => a.run r ++ [([], r)]
  | .seq a b, r => (a.run r).flatMap fun x => (b.run x.2).map fun y => (x.1 ++ y.1, y.2)
  | .alt a b, r => a.run r ++ b.run r
  | .notAhead _, [] => [([], [])]
  | .notAhead p, c :: r => if p c then [] else [([], c :: r)]

/-- One or more. -/
def Re.plus (p : Nat → Bool) : Re := .seq (.cls p) (.many p)

/-- A letter, ignoring ASCII case. -/
def ci (c : Nat) : Re := .cls fun x => x == c || x == c - 32

/-- The documented regular expression, L16-18:
`(?i:'s|'t|'re|'ve|'m|'ll|'d)|[^\r\n\p{L}\p{N}]?\p{L}+|\p{N}| ?[^\s\p{L}\p{N}]+[\r\n]*|\s*[\r\n]+|\s+(?!\S)|\s+` -/
def documented (k : CharClass) : Re :=
  .alt (.seq (.cls fun x => x == 39) (.alt (ci 115) (.alt (ci 116) (.alt (.seq (ci 114) (ci 101))
    (.alt (.seq (ci 118) (ci 101)) (.alt (ci 109) (.alt (.seq (ci 108) (ci 108)) (ci 100))))))))
  (.alt (.seq (.opt (.cls fun c => !isNl c && !k.letter c && !k.digit c)) (.plus k.letter))
  (.alt (.cls k.digit)
  (.alt (.seq (.opt (.cls fun c => c == 32)) (.seq (.plus k.symbol) (.many isNl)))
  (.alt (.seq (.many k.space) (.plus isNl))
  (.alt (.seq (.plus k.space) (.notAhead fun c => !k.space c))
    (.plus k.space))))))

/-- All matches from left to right. -/
def reFindAll (re : Re) (text : List Nat) : List (List Nat) := findAll (fun r => (re.run r).head?) text.length text

/-- Texts without two adjacent white-space characters and without an upper-case contraction
(`'S`, `'rE`, …). -/
def Plain (k : CharClass) (text : List Nat) : Prop :=
  (∀ a x y b, text = a ++ x :: y :: b → ¬ (k.space x = true ∧ k.space y = true)) ∧
  (∀ a y b, text = a ++ 39 :: y :: b → y ∉ [83, 84, 82, 86, 77, 76, 68]) ∧
  (∀ a y z b, text = a ++ 39 :: y :: z :: b → z ∉ [69, 76])

theorem run_cls_nil (p : Nat → Bool) : (Re.cls p).run [] = [] := rfl
theorem run_cls_cons (p : Nat → Bool) (c : Nat) (r : List Nat) :
    (Re.cls p).run (c :: r) = if p c then [([c], r)] else [] := rfl
theorem run_opt (a : Re) (r : List Nat) : (Re.opt a).run r = a.run r ++ [([], r)] := by rw [Re.run]

theorem run_many_head (p : Nat → Bool) (r : List Nat) :
    ((Re.many p).run r).head? = some (r.takeWhile p, r.dropWhile p) := by
  unfold Re.run
  rw [List.head?_map, List.range_succ, List.reverse_append]
  simp only [List.reverse_cons, List.reverse_nil, List.nil_append, List.cons_append, List.head?_cons,
    Option.map_some, Option.some.injEq, Prod.mk.injEq]
  constructor
  · conv_lhs => rw [← List.takeWhile_append_dropWhile (p := p) (l := r)]
    rw [List.take_append_of_le_length (by simp)]
    simp
  · conv_lhs => rw [← List.takeWhile_append_dropWhile (p := p) (l := r)]
    rw [List.drop_left' (by simp)]

theorem run_seq_head (a b : Re) (r : List Nat) :
    ((Re.seq a b).run r).head? = (a.run r).findSome? fun x => (b.run x.2).head?.map fun y => (x.1 ++ y.1, y.2) := by
  rw [Re.run, List.head?_flatMap]
  congr 1
  funext x
  rw [List.head?_map]

theorem run_alt_head (a b : Re) (r : List Nat) :
    ((Re.alt a b).run r).head? = ((a.run r).head?).or (b.run r).head? := by
  rw [Re.run, List.head?_append]

theorem run_plus_head (p : Nat → Bool) (r : List Nat) :
    ((Re.plus p).run r).head? = if r.takeWhile p = [] then none else some (r.takeWhile p, r.dropWhile p) := by
  unfold Re.plus
  rw [run_seq_head]
  cases r with
  | nil => simp [run_cls_nil]
  | cons c r =>
    cases hp : p c with
    | true => simp [run_cls_cons, hp, run_many_head]
    | false => simp [run_cls_cons, hp]

theorem head2 (k : CharClass) (c : Nat) (r : List Nat) :
    ((Re.seq (.opt (.cls fun c => !isNl c && !k.letter c && !k.digit c)) (.plus k.letter)).run (c :: r)).head?
      = pat2 k (c :: r) := by
  rw [run_seq_head]
  cases hl : k.letter c <;> cases hd : k.digit c <;> cases hn : isNl c <;>
    simp [run_opt, run_cls_cons, run_plus_head, pat2, letters, hl, hd, hn]
  rw [List.findSome?_cons, List.findSome?_cons]
  by_cases h : r.takeWhile k.letter = []
  · simp [h, hl]
  · simp [h]

theorem head4 (k : CharClass) (hs : k.space 32 = true) (c : Nat) (r : List Nat) :
    ((Re.seq (.opt (.cls fun c => c == 32)) (.seq (.plus k.symbol) (.many isNl))).run (c :: r)).head?
      = pat4 k (c :: r) := by
  have hin : ∀ l : List Nat, ((Re.seq (.plus k.symbol) (.many isNl)).run l).head? = symbols k [] l := by
    intro l
    rw [run_seq_head]
    unfold symbols
    have h1 := run_plus_head k.symbol l
    cases hl : (Re.plus k.symbol).run l with
    | nil =>
      rw [hl] at h1
      simp only [List.head?_nil] at h1
      split_ifs at h1 with h2
      simp [h2]
    | cons x xs =>
      rw [hl] at h1
      simp only [List.head?_cons] at h1
      split_ifs at h1 with h2
      simp only [Option.some.injEq] at h1
      subst h1
      simp [run_many_head, h2]
  rw [run_seq_head]
  by_cases hc : c = 32
  · subst hc
    have hsym : k.symbol 32 = false := by simp [CharClass.symbol, hs]
    simp only [run_opt, run_cls_cons, beq_self_eq_true, if_true, pat4]
    simp only [List.cons_append, List.nil_append, List.findSome?_cons, List.findSome?_nil]
    rw [hin, hin]
    by_cases h : r.takeWhile k.symbol = []
    · simp [symbols, hsym, h]
    · simp [symbols, h]
  · simp [run_opt, run_cls_cons, hc, pat4, hin]

/-- Facts about the locale used below. -/
structure CharClass.Std (k : CharClass) : Prop where
  space : k.space 32 = true
  cr : k.space 13 = true
  lf : k.space 10 = true

theorem bf {a y : Nat} (h : ¬ y = a) : (a == y) = false := by simp; omega

theorem head1 (k : CharClass) (c : Nat) (r : List Nat) (hp : Plain k (c :: r)) :
    ((Re.seq (.cls fun x => x == 39) (.alt (ci 115) (.alt (ci 116) (.alt (.seq (ci 114) (ci 101))
      (.alt (.seq (ci 118) (ci 101)) (.alt (ci 109) (.alt (.seq (ci 108) (ci 108)) (ci 100)))))))).run (c :: r)).head?
      = pat1 (c :: r) := by
  by_cases hc : c = 39
  · subst hc
    rw [run_seq_head, run_cls_cons]
    simp only [beq_self_eq_true, if_true, List.findSome?_cons, List.findSome?_nil, run_alt_head, run_seq_head, ci]
    match r, hp with
    | [], _ => simp [run_cls_nil, pat1, contractions]
    | [y], hp =>
      have h1 := hp.2.1 [] y [] rfl
      simp only [List.mem_cons, List.not_mem_nil, or_false, not_or] at h1
      obtain ⟨n1, n2, n3, n4, n5, n6, n7⟩ := h1
      simp only [run_cls_cons, pat1, contractions, List.find?_cons, List.isPrefixOf]
      by_cases e1 : y = 115
      · subst e1; simp
      by_cases e2 : y = 116
      · subst e2; simp
      by_cases e5 : y = 109
      · subst e5; simp
      by_cases e7 : y = 100
      · subst e7; simp
      by_cases e3 : y = 114
      · subst e3; simp [run_cls_nil]
      by_cases e4 : y = 118
      · subst e4; simp [run_cls_nil]
      by_cases e6 : y = 108
      · subst e6; simp [run_cls_nil]
      simp [*, bf e1, bf e2, bf e5, bf e7]
    | y :: z :: t, hp =>
      have h1 := hp.2.1 [] y (z :: t) rfl
      have h2 := hp.2.2 [] y z t rfl
      simp only [List.mem_cons, List.not_mem_nil, or_false, not_or] at h1 h2
      obtain ⟨n1, n2, n3, n4, n5, n6, n7⟩ := h1
      obtain ⟨m1, m2⟩ := h2
      simp only [run_cls_cons, pat1, contractions, List.find?_cons, List.isPrefixOf]
      by_cases e1 : y = 115
      · subst e1; simp
      by_cases e2 : y = 116
      · subst e2; simp
      by_cases e5 : y = 109
      · subst e5; simp
      by_cases e7 : y = 100
      · subst e7; simp
      by_cases e3 : y = 114
      · subst e3
        by_cases f : z = 101
        · subst f; simp [run_cls_cons]
        · simp [run_cls_cons, f, bf f, m1]
      by_cases e4 : y = 118
      · subst e4
        by_cases f : z = 101
        · subst f; simp [run_cls_cons]
        · simp [run_cls_cons, f, bf f, m1]
      by_cases e6 : y = 108
      · subst e6
        by_cases f : z = 108
        · subst f; simp [run_cls_cons]
        · simp [run_cls_cons, f, bf f, m2]
      simp [*, bf e1, bf e2, bf e3, bf e4, bf e5, bf e6, bf e7]
  · have hc' : ¬ (39 = c) := fun h => hc h.symm
    rw [run_seq_head, run_cls_cons]
    simp [hc, hc', pat1, contractions, List.isPrefixOf]

theorem head567 (k : CharClass) (hk : k.Std) (c : Nat) (r : List Nat) (hp : Plain k (c :: r)) :
    (((Re.seq (.many k.space) (.plus isNl)).run (c :: r)).head?).or
      ((((Re.seq (.plus k.space) (.notAhead fun c => !k.space c)).run (c :: r)).head?).or
        ((Re.plus k.space).run (c :: r)).head?)
      = ((pat5 k (c :: r)).or (pat6 k (c :: r))).or (pat7 k (c :: r)) := by
  cases hs : k.space c with
  | false =>
    have hn : isNl c = false := by
      cases h : isNl c with
      | false => rfl
      | true =>
        simp only [isNl, Bool.or_eq_true, beq_iff_eq] at h
        rcases h with rfl | rfl
        · rw [hk.cr] at hs; exact absurd hs (by simp)
        · rw [hk.lf] at hs; exact absurd hs (by simp)
    have h1 : (Re.many k.space).run (c :: r) = [([], c :: r)] := by simp [Re.run, hs]
    have h2 : (Re.plus k.space).run (c :: r) = [] := by
      simp [Re.plus, Re.run, hs]
    rw [run_seq_head, run_seq_head, h1, h2]
    simp [run_plus_head, hn, pat5, pat6, pat7, hs]
  | true =>
    have hr : r.takeWhile k.space = [] ∧ r.dropWhile k.space = r ∧ r.takeWhile isNl = [] ∧ r.dropWhile isNl = r := by
      cases r with
      | nil => simp
      | cons d r =>
        have h0 := hp.1 [] c d r rfl
        have hd : k.space d = false := by
          cases h : k.space d with
          | false => rfl
          | true => exact absurd ⟨hs, h⟩ h0
        have hn : isNl d = false := by
          cases h : isNl d with
          | false => rfl
          | true =>
            simp only [isNl, Bool.or_eq_true, beq_iff_eq] at h
            rcases h with rfl | rfl
            · rw [hk.cr] at hd; exact absurd hd (by simp)
            · rw [hk.lf] at hd; exact absurd hd (by simp)
        simp [hd, hn]
    obtain ⟨r1, r2, r3, r4⟩ := hr
    have h1 : (Re.many k.space).run (c :: r) = [([c], r), ([], c :: r)] := by simp [Re.run, hs, r1, List.range_succ]
    have h2 : (Re.plus k.space).run (c :: r) = [([c], r)] := by
      simp [Re.plus, Re.run, hs, r1]
    have hR : (pat7 k (c :: r)) = some ([c], r) := by simp [pat7, hs, r1, r2]
    have h5 : pat5 k (c :: r) = none := by
      unfold pat5
      rw [List.dropWhile_cons_of_pos hs, r2]
      cases r with
      | nil => rfl
      | cons d r =>
        have : isNl d = false := by
          cases h : isNl d with
          | false => rfl
          | true => simp [h] at r3
        simp [this]
    have h6 : pat6 k (c :: r) = none ∨ pat6 k (c :: r) = some ([c], r) := by
      unfold pat6
      simp only [hs, if_true]
      rw [List.dropWhile_cons_of_pos hs, r2, List.takeWhile_cons_of_pos hs, r1]
      cases r with
      | nil => simp
      | cons d r => simp only; split_ifs <;> simp
    have hL6 : ((Re.seq (.plus k.space) (.notAhead fun c => !k.space c)).run (c :: r)).head? = none ∨
        ((Re.seq (.plus k.space) (.notAhead fun c => !k.space c)).run (c :: r)).head? = some ([c], r) := by
      rw [run_seq_head, h2]
      cases r with
      | nil => simp [Re.run]
      | cons d r => cases hd : k.space d <;> simp [Re.run, hd]
    have hL5 : ((Re.seq (.many k.space) (.plus isNl)).run (c :: r)).head? = none ∨
        ((Re.seq (.many k.space) (.plus isNl)).run (c :: r)).head? = some ([c], r) := by
      rw [run_seq_head, h1, List.findSome?_cons, List.findSome?_cons]
      cases hn : isNl c <;> simp [run_plus_head, r3, r4, hn]
    rw [h5, hR, h2]
    rcases h6 with h6 | h6 <;> rcases hL5 with h7 | h7 <;> rcases hL6 with h8 | h8 <;> simp [h6, h7, h8]

theorem head_documented (k : CharClass) (hk : k.Std) (c : Nat) (r : List Nat) (hp : Plain k (c :: r)) :
    ((documented k).run (c :: r)).head? = matchPattern k (c :: r) := by
  unfold documented matchPattern
  rw [run_alt_head, run_alt_head, run_alt_head, run_alt_head, run_alt_head, run_alt_head, head1 k c r hp, head2,
    head4 k hk.space, head567 k hk c r hp]
  have h3 : ((Re.cls k.digit).run (c :: r)).head? = pat3 k (c :: r) := by
    rw [run_cls_cons]; unfold pat3; simp only; split_ifs <;> rfl
  rw [h3]
  simp only [Option.or_assoc]

theorem plain_suffix {k : CharClass} {a b : List Nat} (h : Plain k (a ++ b)) : Plain k b := by
  refine ⟨?_, ?_, ?_⟩
  · intro u x y v e
    exact h.1 (a ++ u) x y v (by rw [e]; simp)
  · intro u y v e
    exact h.2.1 (a ++ u) y v (by rw [e]; simp)
  · intro u y z v e
    exact h.2.2 (a ++ u) y z v (by rw [e]; simp)

/-- C44 (partial). On texts without two adjacent white-space characters and without upper-case
contractions, the pieces are the matches of the documented regular expression. -/
theorem qwen_regex_documented_partial (k : CharClass) (hk : k.Std) (text : List Nat) (hp : Plain k text) :
    qwenRegex k text = reFindAll (documented k) text := by
  unfold qwenRegex reFindAll
  suffices h : ∀ (n : Nat) (r : List Nat), Plain k r →
      findAll (matchPattern k) n r = findAll (fun r => ((documented k).run r).head?) n r by exact h _ _ hp
  intro n
  induction n with
  | zero => intros; rfl
  | succ n ih =>
    intro r hr
    cases r with
    | nil => rfl
    | cons c r =>
      unfold findAll
      rw [head_documented k hk c r hr]
      cases hm : matchPattern k (c :: r) with
      | none => exact ih r (plain_suffix (a := [c]) hr)
      | some y =>
        obtain ⟨x, r'⟩ := y
        simp only
        rw [ih r' (plain_suffix (a := x) (by rw [(matchPattern_split hm).1]; exact hr))]

/-- ASCII letters, digits and white space. -/
def asciiClass : CharClass where
  letter c := (65 ≤ c ∧ c ≤ 90) ∨ (97 ≤ c ∧ c ≤ 122)
  digit c := 48 ≤ c ∧ c ≤ 57
  space c := c = 32 ∨ (9 ≤ c ∧ c ≤ 13)

def codes (s : String) : List Nat := s.toList.map Char.toNat

example : asciiClass.Std := ⟨by decide, by decide, by decide⟩

/-- "it's 42!\n" is covered by the theorem; its pieces. -/
example : qwenRegex asciiClass (codes "it's 42!\n") = [codes "it", codes "'s", codes " ", codes "4", codes "2", codes "!\n"] := by
  decide +kernel

/-- C44 violated in general: "  foo" is cut as "  ", "foo" and not " ", " foo"; an indented line loses its
own line break piece; upper-case contractions stay attached. -/
theorem qwen_regex_documented_violated :
    (qwenRegex asciiClass (codes "  foo") = [codes "  ", codes "foo"] ∧
      reFindAll (documented asciiClass) (codes "  foo") = [codes " ", codes " foo"]) ∧
    (qwenRegex asciiClass (codes "a\n  b") = [codes "a", codes "\n  ", codes "b"] ∧
      reFindAll (documented asciiClass) (codes "a\n  b") = [codes "a", codes "\n", codes " ", codes " b"]) ∧
    (qwenRegex asciiClass (codes "I'LLx") = [codes "I", codes "'LLx"] ∧
      reFindAll (documented asciiClass) (codes "I'LLx") = [codes "I", codes "'LL", codes "x"]) := by
  decide +kernel

/-! ### C43: the whole tokenizer -/

/-- A produced token: the wide string, and whether it was kept as a special token. (The code returns
the strings only; the flag is for the statements below.) -/
abbrev Tok := Bool × List Nat

/-- `Qwen3Tokenizer::_tokenize`, L175-190; `none` only if merging runs out of fuel (it never does). -/
def tokenizePlain (k : CharClass) (merges : List (Piece Nat × Piece Nat))
    (ord : List (Piece Nat × Piece Nat) → List (Piece Nat × Piece Nat)) (str : List Nat) : Option (List (List Nat)) :=
  ((qwenRegex k (decode str)).mapM fun s =>
    bpe merges ord ((encode s).length + 1) ((encode s).map byteToUni)).map List.flatten

/-- The loop body of `Qwen3Tokenizer::tokenize`, L192-203. -/
def tokenizeSeg (k : CharClass) (special : List (List Nat)) (merges : List (Piece Nat × Piece Nat))
    (ord : List (Piece Nat × Piece Nat) → List (Piece Nat × Piece Nat)) (seg : List Nat) : Option (List Tok) :=
  if seg ∈ special then some [(true, seg)]
  else (tokenizePlain k merges ord (encode seg)).map fun ts => ts.map fun t => (false, t)

/-- `Qwen3Tokenizer::tokenize`, L192-203. `str` is the UTF-8 input. -/
def qwenTokenize (k : CharClass) (special : List (List Nat)) (merges : List (Piece Nat × Piece Nat))
    (ord : List (Piece Nat × Piece Nat) → List (Piece Nat × Piece Nat)) (str : List Nat) : Option (List Tok) :=
  ((trieSplit special (decode str)).mapM (tokenizeSeg k special merges ord)).map List.flatten

/-- `detokenize` of one vocabulary entry, L207-212. -/
def detok (t : List Nat) : List Nat := decode (t.map uniToByte)

/-- The bytes a token stands for. -/
def tokBytes (t : Tok) : List Nat := if t.1 then encode t.2 else t.2.map uniToByte

theorem mapM_option {α β γ : Type} (f : α → Option β) (g : β → List γ) (h : α → List γ) :
    ∀ (l : List α), (∀ a ∈ l, ∃ b, f a = some b ∧ g b = h a) → ∃ bs, l.mapM f = some bs ∧ bs.flatMap g = l.flatMap h
  | [], _ => ⟨[], by simp⟩
  | a :: l, hl => by
    obtain ⟨b, e, hb⟩ := hl a (by simp)
    obtain ⟨bs, es, hbs⟩ := mapM_option f g h l (fun a ha => hl a (by simp [ha]))
    exact ⟨b :: bs, by simp [List.mapM_cons, e, es], by simp [hb, hbs]⟩

theorem mapM_mem {α β : Type} (f : α → Option β) : ∀ (l : List α) (bs : List β), l.mapM f = some bs →
    ∀ b ∈ bs, ∃ a, f a = some b
  | [], bs, h => by
    have : bs = [] := by simpa using h.symm
    subst this; simp
  | a :: l, bs, h => by
    rw [List.mapM_cons] at h
    cases hf : f a with
    | none => rw [hf] at h; simp at h
    | some y =>
      cases hm : l.mapM f with
      | none => rw [hf, hm] at h; simp at h
      | some ys =>
        rw [hf, hm] at h
        have : bs = y :: ys := by simpa using h.symm
        subst this
        intro b hb
        rcases List.mem_cons.mp hb with rfl | hb
        · exact ⟨a, hf⟩
        · exact mapM_mem f l ys hm b hb

theorem encode_flatten (ls : List (List Nat)) : encode ls.flatten = ls.flatMap encode := by
  induction ls with
  | nil => rfl
  | cons l ls ih => simp [encode, List.flatMap_append] at ih ⊢; exact ih

theorem tokenizePlain_bytes (k : CharClass) (hs : k.space 32 = true) (merges : List (Piece Nat × Piece Nat)) {ord}
    (ho : IsOrder (χ := Nat) ord) (w : List Nat) (hw : ∀ c ∈ w, c ≤ 0x10FFFF) :
    ∃ ts, tokenizePlain k merges ord (encode w) = some ts ∧ ts.flatten.map uniToByte = encode w := by
  unfold tokenizePlain
  rw [utf8_roundtrip w hw]
  have hl := qwen_regex_lossless k hs w
  obtain ⟨bs, e, hb⟩ := mapM_option
    (fun s => bpe merges ord ((encode s).length + 1) ((encode s).map byteToUni))
    (fun ps => ps.flatten.map uniToByte) encode (qwenRegex k w) (by
      intro s _
      obtain ⟨ps, e, hf⟩ := bpe_concat merges ho ((encode s).map byteToUni) ((encode s).length + 1) (by simp)
      refine ⟨ps, e, ?_⟩
      rw [hf]
      exact byte_text_roundtrip _ (encode_bytes s))
  refine ⟨bs.flatten, by rw [e]; rfl, ?_⟩
  have h1 : (bs.flatMap fun ps => ps.flatten.map uniToByte) = bs.flatten.flatten.map uniToByte := by
    clear e hb
    induction bs with
    | nil => rfl
    | cons b bs ih => simp at ih ⊢; exact ih
  rw [← h1, hb, ← encode_flatten, hl.1]

/-- C43. Tokenization always produces a result, and the bytes of the tokens, in order, are exactly the
bytes of the (valid UTF-8) input: nothing is lost, added or reordered. For every set of special tokens,
merge list, locale and hash order. -/
theorem qwen_tokenize_lossless (k : CharClass) (hs : k.space 32 = true) (special : List (List Nat))
    (merges : List (Piece Nat × Piece Nat)) {ord} (ho : IsOrder (χ := Nat) ord) (s : List Char) :
    ∃ ts, qwenTokenize k special merges ord (stdUtf8 s) = some ts ∧ ts.flatMap tokBytes = stdUtf8 s := by
  have hw : ∀ c ∈ s.map Char.toNat, c ≤ 0x10FFFF := by
    intro c hc
    obtain ⟨x, _, rfl⟩ := List.mem_map.mp hc
    exact toNat_lt x
  unfold qwenTokenize
  rw [← encode_standard, utf8_roundtrip _ hw]
  obtain ⟨bs, e, hb⟩ := mapM_option (tokenizeSeg k special merges ord) (fun ts => ts.flatMap tokBytes) encode
    (trieSplit special (s.map Char.toNat)) (by
      intro seg hseg
      have hsub : ∀ c ∈ seg, c ≤ 0x10FFFF := by
        intro c hc
        apply hw
        rw [← split_partition special (s.map Char.toNat)]
        exact List.mem_flatten.mpr ⟨seg, hseg, hc⟩
      unfold tokenizeSeg
      split_ifs
      · exact ⟨_, rfl, by simp [tokBytes]⟩
      · obtain ⟨ts, e, hf⟩ := tokenizePlain_bytes k hs merges ho seg hsub
        refine ⟨_, by rw [e]; rfl, ?_⟩
        rw [← hf]
        clear e hf
        induction ts with
        | nil => rfl
        | cons t ts ih => simp [tokBytes] at ih ⊢; exact ih)
  refine ⟨bs.flatten, by rw [e]; rfl, ?_⟩
  have h1 : bs.flatten.flatMap tokBytes = bs.flatMap fun ts => ts.flatMap tokBytes := by
    clear e hb
    induction bs with
    | nil => rfl
    | cons b bs ih => simp [ih]
  rw [h1, hb, ← encode_flatten, split_partition]

/-- C43 violated for decoding id by id, the way generation prints text: the two bytes of one character
end up in two tokens, and each of them decodes to nothing. -/
theorem qwen_detokenize_violated :
    ∃ ts, qwenTokenize asciiClass [] [] id (stdUtf8 ['é']) = some ts ∧ ts.flatMap (fun t => detok t.2) = [] := by
  refine ⟨[(false, [byteToUni 0xC3]), (false, [byteToUni 0xA9])], ?_, ?_⟩
  · decide +kernel
  · decide +kernel

/-- C43 (partial). If no token ends inside a character, decoding the tokens one by one gives the text
back. -/
theorem qwen_detokenize_partial (k : CharClass) (hs : k.space 32 = true)
    (merges : List (Piece Nat × Piece Nat)) {ord} (ho : IsOrder (χ := Nat) ord) (s : List Char) :
    ∃ ts, qwenTokenize k [] merges ord (stdUtf8 s) = some ts ∧
      ((∀ t ∈ ts, ∃ w : List Char, t.2.map uniToByte = stdUtf8 w) → ts.flatMap (fun t => detok t.2) = s.map Char.toNat) := by
  obtain ⟨ts, e, hb⟩ := qwen_tokenize_lossless k hs [] merges ho s
  refine ⟨ts, e, ?_⟩
  intro hall
  have hplain : ∀ t ∈ ts, t.1 = false := by
    unfold qwenTokenize at e
    cases hm : (trieSplit [] (decode (stdUtf8 s))).mapM (tokenizeSeg k [] merges ord) with
    | none => rw [hm] at e; simp at e
    | some bs =>
      rw [hm] at e
      simp only [Option.map_some, Option.some.injEq] at e
      subst e
      intro t ht
      obtain ⟨b, hb, htb⟩ := List.mem_flatten.mp ht
      obtain ⟨seg, hseg⟩ := mapM_mem _ _ _ hm b hb
      unfold tokenizeSeg at hseg
      simp only [List.not_mem_nil, if_false, Option.map_eq_some_iff] at hseg
      obtain ⟨a, -, rfl⟩ := hseg
      obtain ⟨x, -, rfl⟩ := List.mem_map.mp htb
      rfl
  have h2 : ∃ v : List Char, ts.flatMap (fun t => detok t.2) = v.map Char.toNat ∧ ts.flatMap tokBytes = stdUtf8 v := by
    clear e hb
    induction ts with
    | nil => exact ⟨[], rfl, rfl⟩
    | cons t ts ih =>
      obtain ⟨v, h1, h2⟩ := ih (fun t ht => hall t (by simp [ht])) (fun t ht => hplain t (by simp [ht]))
      obtain ⟨w, hw⟩ := hall t (by simp)
      refine ⟨w ++ v, ?_, ?_⟩
      · rw [List.flatMap_cons, h1, List.map_append]
        congr 1
        unfold detok
        rw [hw, ← encode_standard, utf8_roundtrip]
        intro c hc
        obtain ⟨x, _, rfl⟩ := List.mem_map.mp hc
        exact toNat_lt x
      · rw [List.flatMap_cons, h2]
        have : tokBytes t = stdUtf8 w := by unfold tokBytes; rw [hplain t (by simp)]; simpa using hw
        rw [this]
        simp [stdUtf8]
  obtain ⟨v, h3, h4⟩ := h2
  rw [h3]
  have hb' : ∀ u : List Char, ∀ c ∈ u.map Char.toNat, c ≤ 0x10FFFF := by
    intro u c hc
    obtain ⟨x, _, rfl⟩ := List.mem_map.mp hc
    exact toNat_lt x
  apply encode_injective _ _ (hb' v) (hb' s)
  rw [encode_standard, encode_standard, ← h4, hb]

end Verif.Token
