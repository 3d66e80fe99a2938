import Verif.Prelude
/-
UTF-8 conversion and the byte-to-unicode table (C25, C26).
Source: mllm/preprocessor/tokenizers/Unicode.cpp.
A byte is a `Nat` below 256; a wide character is a `Nat` (negative `wchar_t` values compare as large
unsigned values in the code and are dropped, like every value above 0x10FFFF).
-/
namespace Verif.Token

/-- One iteration of `wideString2Utf8String`, Unicode.cpp L12-29. -/
def enc1 (wc : Nat) : List Nat :=
  if wc ≤ 0x7F then [wc]
  else if wc ≤ 0x7FF then [0xC0 ||| ((wc >>> 6) &&& 0x1F), 0x80 ||| (wc &&& 0x3F)]
  else if wc ≤ 0xFFFF then
    [0xE0 ||| ((wc >>> 12) &&& 0x0F), 0x80 ||| ((wc >>> 6) &&& 0x3F), 0x80 ||| (wc &&& 0x3F)]
  else if wc ≤ 0x10FFFF then
    [0xF0 ||| ((wc >>> 18) &&& 0x07), 0x80 ||| ((wc >>> 12) &&& 0x3F), 0x80 ||| ((wc >>> 6) &&& 0x3F),
      0x80 ||| (wc &&& 0x3F)]
  else []

/-- `wideString2Utf8String`, Unicode.cpp L11-32. -/
def encode (w : List Nat) : List Nat := w.flatMap enc1

/-- `utf8string2WideString`, Unicode.cpp L34-78: the index loop as recursion on the remaining bytes. -/
def decode : List Nat → List Nat
  | [] => []
  | b :: r =>
    if b &&& 0x80 = 0 then b :: decode r
    else if b &&& 0xE0 = 0xC0 then
      match r with
      | b1 :: r' => (((b &&& 0x1F) <<< 6) ||| (b1 &&& 0x3F)) :: decode r'
      | _ => []
    else if b &&& 0xF0 = 0xE0 then
      match r with
      | b1 :: b2 :: r' => (((b &&& 0x0F) <<< 12) ||| ((b1 &&& 0x3F) <<< 6) ||| (b2 &&& 0x3F)) :: decode r'
      | _ => []
    else if b &&& 0xF8 = 0xF0 then
      match r with
      | b1 :: b2 :: b3 :: r' =>
        (((b &&& 0x07) <<< 18) ||| ((b1 &&& 0x3F) <<< 12) ||| ((b2 &&& 0x3F) <<< 6) ||| (b3 &&& 0x3F)) ::
          decode r'
      | _ => []
    else decode r

/-- First three loops of `makeBytes2UnicodeMap`, L80-87: the printable ranges `!`..`~`, `¡`..`¬`,
`®`..`ÿ`. -/
def printable : List Nat :=
  (List.range (0x7E - 0x21 + 1)).map (· + 0x21) ++ (List.range (0xAC - 0xA1 + 1)).map (· + 0xA1) ++
    (List.range (0xFF - 0xAE + 1)).map (· + 0xAE)

/-- The loop over the remaining byte values, L92-99: `(bs, cs, n)` after processing the given bytes. -/
def fillRest : List Nat → List Nat → List Nat → Nat → List Nat × List Nat
  | [], bs, cs, _ => (bs, cs)
  | b :: rest, bs, cs, n =>
    if b ∈ bs then fillRest rest bs cs n else fillRest rest (bs ++ [b]) (cs ++ [256 + n]) (n + 1)

/-- `makeBytes2UnicodeMap`, L80-105, as the list of inserted `(byte, character)` pairs. -/
def byteTable : List (Nat × Nat) :=
  let r := fillRest (List.range 256) printable printable 0
  r.1.zip r.2

/-- `dict[b]`: `unordered_map` keeps the first insertion; a missing key yields 0 (`operator[]`). -/
def byteToUni (b : Nat) : Nat := (byteTable.lookup b).getD 0

/-- The inverse table built by the tokenizers (tokenization_qwen3.hpp L145-147); a missing key yields 0. -/
def uniToByte (c : Nat) : Nat := ((byteTable.map fun p => (p.2, p.1)).lookup c).getD 0

/-! ### C25 -/

theorem or_lead2 : ∀ y < 32, ((0xC0 ||| y) = 0xC0 + y) ∧ (0xC0 ||| y) &&& 0x80 ≠ 0 ∧
    (0xC0 ||| y) &&& 0xE0 = 0xC0 ∧ (0xC0 ||| y) &&& 0x1F = y := by decide
theorem or_lead3 : ∀ y < 16, ((0xE0 ||| y) = 0xE0 + y) ∧ (0xE0 ||| y) &&& 0x80 ≠ 0 ∧
    (0xE0 ||| y) &&& 0xE0 ≠ 0xC0 ∧ (0xE0 ||| y) &&& 0xF0 = 0xE0 ∧ (0xE0 ||| y) &&& 0x0F = y := by decide
theorem or_lead4 : ∀ y < 8, ((0xF0 ||| y) = 0xF0 + y) ∧ (0xF0 ||| y) &&& 0x80 ≠ 0 ∧
    (0xF0 ||| y) &&& 0xE0 ≠ 0xC0 ∧ (0xF0 ||| y) &&& 0xF0 ≠ 0xE0 ∧ (0xF0 ||| y) &&& 0xF8 = 0xF0 ∧
    (0xF0 ||| y) &&& 0x07 = y := by decide
theorem or_cont : ∀ y < 64, ((0x80 ||| y) = 0x80 + y) ∧ (0x80 ||| y) &&& 0x3F = y := by decide
theorem ascii : ∀ y < 128, y &&& 0x80 = 0 := by decide

theorem and_1F (n : Nat) : n &&& 0x1F = n % 32 := Nat.and_two_pow_sub_one_eq_mod n 5
theorem and_0F (n : Nat) : n &&& 0x0F = n % 16 := Nat.and_two_pow_sub_one_eq_mod n 4
theorem and_07 (n : Nat) : n &&& 0x07 = n % 8 := Nat.and_two_pow_sub_one_eq_mod n 3
theorem and_3F (n : Nat) : n &&& 0x3F = n % 64 := Nat.and_two_pow_sub_one_eq_mod n 6

theorem shl_or (a b i : Nat) (h : b < 2 ^ i) : (a <<< i) ||| b = a * 2 ^ i + b := by
  rw [← Nat.shiftLeft_add_eq_or_of_lt h, Nat.shiftLeft_eq]

theorem asm3 (a b c : Nat) (hb : b < 64) (hc : c < 64) :
    (a <<< 12) ||| (b <<< 6) ||| c = a * 4096 + b * 64 + c := by
  rw [Nat.or_assoc, shl_or b c 6 (by simpa using hc), shl_or a _ 12 (by omega)]
  omega

theorem asm4 (a b c d : Nat) (hb : b < 64) (hc : c < 64) (hd : d < 64) :
    (a <<< 18) ||| (b <<< 12) ||| (c <<< 6) ||| d = a * 262144 + b * 4096 + c * 64 + d := by
  rw [Nat.or_assoc, Nat.or_assoc, shl_or c d 6 (by simpa using hd), shl_or b _ 12 (by omega),
    shl_or a _ 18 (by omega)]
  omega

/-- Encoding in arithmetic form. -/
theorem enc1_eq (wc : Nat) : enc1 wc =
    if wc ≤ 0x7F then [wc]
    else if wc ≤ 0x7FF then [0xC0 + wc / 64 % 32, 0x80 + wc % 64]
    else if wc ≤ 0xFFFF then [0xE0 + wc / 4096 % 16, 0x80 + wc / 64 % 64, 0x80 + wc % 64]
    else if wc ≤ 0x10FFFF then
      [0xF0 + wc / 262144 % 8, 0x80 + wc / 4096 % 64, 0x80 + wc / 64 % 64, 0x80 + wc % 64]
    else [] := by
  unfold enc1
  simp only [and_1F, and_0F, and_07, and_3F, Nat.shiftRight_eq_div_pow]
  norm_num only
  rw [(or_lead2 (wc / 64 % 32) (Nat.mod_lt _ (by decide))).1, (or_cont (wc % 64) (Nat.mod_lt _ (by decide))).1,
    (or_lead3 (wc / 4096 % 16) (Nat.mod_lt _ (by decide))).1,
    (or_cont (wc / 64 % 64) (Nat.mod_lt _ (by decide))).1,
    (or_lead4 (wc / 262144 % 8) (Nat.mod_lt _ (by decide))).1,
    (or_cont (wc / 4096 % 64) (Nat.mod_lt _ (by decide))).1]

theorem decode_enc1 (wc : Nat) (h : wc ≤ 0x10FFFF) (r : List Nat) :
    decode (enc1 wc ++ r) = wc :: decode r := by
  unfold enc1
  split_ifs with h1 h2 h3
  · simp only [List.cons_append, List.nil_append]
    rw [decode.eq_def]
    simp only [ascii wc (by omega), if_true]
  · obtain ⟨-, a2, a3, a4⟩ := or_lead2 ((wc >>> 6) &&& 0x1F) (by rw [and_1F]; exact Nat.mod_lt _ (by decide))
    obtain ⟨-, b2⟩ := or_cont (wc &&& 0x3F) (by rw [and_3F]; exact Nat.mod_lt _ (by decide))
    simp only [List.cons_append, List.nil_append, decode]
    rw [if_neg a2, if_pos a3, a4, b2, shl_or _ _ 6 (by rw [and_3F]; exact Nat.mod_lt _ (by decide)),
      and_1F, and_3F, Nat.shiftRight_eq_div_pow]
    congr 1
    omega
  · obtain ⟨-, a2, a3, a4, a5⟩ := or_lead3 ((wc >>> 12) &&& 0x0F) (by rw [and_0F]; exact Nat.mod_lt _ (by decide))
    have b0 : (wc >>> 6) &&& 0x3F < 64 := by rw [and_3F]; exact Nat.mod_lt _ (by decide)
    have c0 : wc &&& 0x3F < 64 := by rw [and_3F]; exact Nat.mod_lt _ (by decide)
    obtain ⟨-, b2⟩ := or_cont _ b0
    obtain ⟨-, c2⟩ := or_cont _ c0
    simp only [List.cons_append, List.nil_append, decode]
    rw [if_neg a2, if_neg a3, if_pos a4, a5, b2, c2, asm3 _ _ _ b0 c0,
      and_0F, and_3F, and_3F, Nat.shiftRight_eq_div_pow, Nat.shiftRight_eq_div_pow]
    congr 1
    omega
  · obtain ⟨-, a2, a3, a4, a5, a6⟩ := or_lead4 ((wc >>> 18) &&& 0x07) (by rw [and_07]; exact Nat.mod_lt _ (by decide))
    have b0 : (wc >>> 12) &&& 0x3F < 64 := by rw [and_3F]; exact Nat.mod_lt _ (by decide)
    have c0 : (wc >>> 6) &&& 0x3F < 64 := by rw [and_3F]; exact Nat.mod_lt _ (by decide)
    have d0 : wc &&& 0x3F < 64 := by rw [and_3F]; exact Nat.mod_lt _ (by decide)
    obtain ⟨-, b2⟩ := or_cont _ b0
    obtain ⟨-, c2⟩ := or_cont _ c0
    obtain ⟨-, d2⟩ := or_cont _ d0
    simp only [List.cons_append, List.nil_append, decode]
    rw [if_neg a2, if_neg a3, if_neg a4, if_pos a5, a6, b2, c2, d2, asm4 _ _ _ _ b0 c0 d0,
      and_07, and_3F, and_3F, and_3F, Nat.shiftRight_eq_div_pow, Nat.shiftRight_eq_div_pow,
      Nat.shiftRight_eq_div_pow]
    congr 1
    omega

theorem decode_encode_append (w : List Nat) (h : ∀ c ∈ w, c ≤ 0x10FFFF) (r : List Nat) :
    decode (encode w ++ r) = w ++ decode r := by
  induction w with
  | nil => rfl
  | cons c w ih =>
    simp only [encode, List.flatMap_cons, List.append_assoc, List.cons_append]
    rw [decode_enc1 c (h c (by simp))]
    congr 1
    exact ih (fun c hc => h c (by simp [hc]))

/-- C25. Converting to UTF-8 and back gives the same wide string, for every string of code points
(including surrogates). -/
theorem utf8_roundtrip (w : List Nat) (h : ∀ c ∈ w, c ≤ 0x10FFFF) : decode (encode w) = w := by
  have := decode_encode_append w h []
  simpa [decode] using this

/-- C25. Distinct strings have distinct encodings. -/
theorem encode_injective (v w : List Nat) (hv : ∀ c ∈ v, c ≤ 0x10FFFF) (hw : ∀ c ∈ w, c ≤ 0x10FFFF)
    (h : encode v = encode w) : v = w := by
  rw [← utf8_roundtrip v hv, h, utf8_roundtrip w hw]

theorem toNat_lt (c : Char) : c.toNat ≤ 0x10FFFF := by
  have := c.valid
  unfold UInt32.isValidChar Nat.isValidChar at this
  unfold Char.toNat
  omega

/-- The bytes of a Lean string (the standard UTF-8 encoding) as numbers. -/
def stdUtf8 (s : List Char) : List Nat := (s.flatMap String.utf8EncodeChar).map UInt8.toNat

/-- C25. The encoder is the standard UTF-8 encoding (Lean's `String.utf8EncodeChar`). -/
theorem encode_standard (s : List Char) : encode (s.map Char.toNat) = stdUtf8 s := by
  have h1 : ∀ c : Char, enc1 c.toNat = (String.utf8EncodeChar c).map UInt8.toNat := by
    intro c
    have hc := toNat_lt c
    rw [enc1_eq]
    unfold String.utf8EncodeChar
    change (if c.toNat ≤ 0x7F then [c.toNat] else _) = List.map _ (if c.toNat ≤ 0x7F then _ else _)
    have hv : c.val.toNat = c.toNat := rfl
    split_ifs <;> simp only [List.map_cons, List.map_nil, UInt8.toNat_ofNat', hv, List.cons.injEq, and_true] <;>
      omega
  unfold stdUtf8 encode
  induction s with
  | nil => rfl
  | cons c s ih => simp only [List.map_cons, List.flatMap_cons, List.map_append, ih, h1]

/-- C25, other direction: decoding any valid UTF-8 text and encoding again gives the same bytes, and
the decoded wide string is its sequence of code points. -/
theorem utf8_roundtrip_bytes (s : List Char) :
    decode (stdUtf8 s) = s.map Char.toNat ∧ encode (decode (stdUtf8 s)) = stdUtf8 s := by
  have h : decode (stdUtf8 s) = s.map Char.toNat := by
    rw [← encode_standard]
    apply utf8_roundtrip
    intro c hc
    obtain ⟨x, -, rfl⟩ := List.mem_map.mp hc
    exact toNat_lt x
  exact ⟨h, by rw [h, encode_standard]⟩

/-- Non-trivial instance: a two-, three- and four-byte character. -/
example : decode (encode [0x41, 0xE9, 0x4E2D, 0x1F600]) = [0x41, 0xE9, 0x4E2D, 0x1F600] ∧
    encode [0x41, 0xE9, 0x4E2D] = [0x41, 0xC3, 0xA9, 0xE4, 0xB8, 0xAD] := by decide

/-- A code point above 0x10FFFF is dropped silently (why C25 speaks of code points). -/
example : decode (encode [0x41, 0x110000, 0x42]) = [0x41, 0x42] := by decide

theorem encode_bytes (w : List Nat) : ∀ b ∈ encode w, b < 256 := by
  intro b hb
  obtain ⟨c, -, hc⟩ := List.mem_flatMap.mp hb
  rw [enc1_eq] at hc
  split_ifs at hc <;> simp only [List.mem_cons, List.not_mem_nil, or_false] at hc <;> omega

/-! ### C26 -/

set_option maxRecDepth 20000 in
theorem table_facts : (∀ b < 256, uniToByte (byteToUni b) = b) ∧
    (∀ b < 256, 0x21 ≤ byteToUni b ∧ ¬ (0x7F ≤ byteToUni b ∧ byteToUni b ≤ 0xA0)) := by decide +kernel

/-- C26. Every byte is mapped to a character of its own and the inverse table gives it back. -/
theorem bytes_unicode_bijection :
    (∀ b < 256, uniToByte (byteToUni b) = b) ∧
    (∀ a < 256, ∀ b < 256, byteToUni a = byteToUni b → a = b) :=
  ⟨table_facts.1, fun a ha b hb h => by rw [← table_facts.1 a ha, h, table_facts.1 b hb]⟩

/-- C26. Every byte string is recovered from its token text. -/
theorem byte_text_roundtrip (bs : List Nat) (h : ∀ b ∈ bs, b < 256) :
    (bs.map byteToUni).map uniToByte = bs := by
  induction bs with
  | nil => rfl
  | cons b bs ih =>
    simp only [List.map_cons]
    rw [table_facts.1 b (h b (by simp)), ih (fun b hb => h b (by simp [hb]))]

/-- C26. No byte is mapped to a blank or a control character: the token text has no character below
`'!'`, none in `0x7F..0xA0` (so merge lines can be split at the blank). -/
theorem byte_text_printable (b : Nat) (hb : b < 256) :
    0x21 ≤ byteToUni b ∧ ¬ (0x7F ≤ byteToUni b ∧ byteToUni b ≤ 0xA0) := table_facts.2 b hb

example : byteToUni 0x20 = 0x120 ∧ byteToUni 0x0A = 0x10A ∧ byteToUni 0x61 = 0x61 := by decide +kernel

end Verif.Token
