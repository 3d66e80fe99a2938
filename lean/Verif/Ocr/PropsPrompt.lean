import Verif.Ocr.Prompt
import Verif.Ocr.PropsTiles

/-!
# C170: image slots and image features of DeepSeek-OCR
-/

namespace Verif.Ocr

variable {V : Type}

/-! ## Sizes -/

theorem tokenRows_length (n m : Nat) : (tokenRows n m).length = n * (m + 1) := by
  rw [tokenRows, List.length_flatMap]
  simp

theorem tokenRows_all (n m : Nat) : ∀ t ∈ tokenRows n m, t = imageId := by
  intro t ht
  simp only [tokenRows, List.mem_flatMap, List.mem_append, List.mem_replicate, List.mem_singleton] at ht
  obtain ⟨_, _, h | h⟩ := ht
  · exact h.2
  · exact h

/-- The slots of one image. -/
def slots (base S : Nat) (g : Nat × Nat) : Nat :=
  queries base * (queries base + 1) + 1 + if 1 < g.1 ∨ 1 < g.2 then queries S * g.2 * (queries S * g.1 + 1) else 0

theorem imageTokens_eq (base S : Nat) (g : Nat × Nat) : imageTokens base S g = List.replicate (slots base S g) imageId := by
  rw [List.eq_replicate_iff]
  constructor
  · rw [imageTokens, slots]
    split_ifs <;> simp [tokenRows_length]
    omega
  · intro t ht
    rw [imageTokens] at ht
    split_ifs at ht <;> simp only [List.mem_append, List.mem_singleton, List.append_nil] at ht
    · rcases ht with (h | h) | h
      · exact tokenRows_all _ _ t h
      · exact h
      · exact tokenRows_all _ _ t h
    · rcases ht with h | h
      · exact tokenRows_all _ _ t h
      · exact h

/-- The side of the feature map is the number of query rows, or one more: two halvings that round up, against one
division that rounds down. -/
theorem samSide_eq {S : Nat} (hS : 16 ≤ S) : samSide S = if 4 ∣ S / 16 then queries S else queries S + 1 := by
  have e : conv S 16 16 0 = S / 16 := by unfold conv; omega
  have e1 : ∀ n, 0 < n → conv n 1 1 0 = n := by intro n hn; unfold conv; omega
  have e2 : ∀ n, 0 < n → conv n 3 1 1 = n := by intro n hn; unfold conv; omega
  have hpos : 0 < S / 16 := by omega
  rw [samSide, e, e1 _ hpos, e2 _ hpos]
  unfold conv queries
  generalize S / 16 = n at *
  split_ifs with h <;> omega

theorem newlined_length (nl : V) (rows : List (List V)) (w : Nat) (h : ∀ r ∈ rows, r.length = w) :
    (newlined nl rows).length = rows.length * (w + 1) := by
  induction rows with
  | nil => simp [newlined]
  | cons r rs ih =>
    have := ih fun r hr => h r (List.mem_cons_of_mem _ hr)
    have hr := h r List.mem_cons_self
    simp only [newlined, List.flatMap_cons, List.length_append, List.length_cons, List.length_nil] at this ⊢
    rw [this, hr, Nat.succ_mul]
    omega

theorem gridRows_length (buf : Nat → V) (h w : Nat) : (gridRows buf h w).length = h ∧ ∀ r ∈ gridRows buf h w, r.length = w := by
  constructor
  · simp [gridRows]
  · intro r hr
    simp only [gridRows, List.mem_map] at hr
    obtain ⟨i, -, rfl⟩ := hr
    simp

/-- Entry `(r, c)` of the grid with a newline after every row; entry `(r, w)` is the newline. -/
theorem newlined_get (nl : V) (buf : Nat → V) (h w : Nat) {r c : Nat} (hr : r < h) (hc : c ≤ w) :
    (newlined nl (gridRows buf h w))[r * (w + 1) + c]? = some (if c = w then nl else buf (r * w + c)) := by
  induction h with
  | zero => omega
  | succ h ih =>
    have hsplit : newlined nl (gridRows buf (h + 1) w) =
        newlined nl (gridRows buf h w) ++ ((List.range w).map (fun c => buf (h * w + c)) ++ [nl]) := by
      simp [newlined, gridRows, List.range_succ]
    have hlen : (newlined nl (gridRows buf h w)).length = h * (w + 1) := by
      rw [newlined_length nl _ w (gridRows_length buf h w).2, (gridRows_length buf h w).1]
    rw [hsplit]
    rcases Nat.lt_or_ge r h with hlt | hge
    · have : (r + 1) * (w + 1) ≤ h * (w + 1) := Nat.mul_le_mul_right _ hlt
      rw [Nat.succ_mul] at this
      rw [List.getElem?_append_left (by omega)]
      exact ih hlt
    · obtain rfl : r = h := by omega
      rw [List.getElem?_append_right (by omega), hlen, Nat.add_sub_cancel_left]
      by_cases hcw : c = w
      · subst hcw
        rw [List.getElem?_append_right (by simp)]
        simp
      · rw [List.getElem?_append_left (by simp; omega), if_neg hcw]
        simp [show c < w by omega]

/-! ## The features -/

/-- **C170.** With tiles that do not sum to zero, the features are, in order: the rows of the tiled image, from top to
bottom, each from left to right and followed by a newline feature; the rows of the whole image, likewise; the separator.
Row `Y`, column `X` of the tiled image is cell `(Y mod side, X mod side)` of tile `(Y / side) * columns + X / side`. -/
theorem C170_features (nl sep : V) {sum : ℚ} (hsum : sum ≠ 0) {T base : Nat} (hT : 16 ≤ T) (g : Nat × Nat) (glob loc : Nat → V) :
    ∃ fs, features nl sep sum (g.1 * g.2) T base g glob loc = some fs ∧
      fs.length = g.2 * samSide T * (g.1 * samSide T + 1) + samSide base * (samSide base + 1) + 1 ∧
      (∀ Y X, Y < g.2 * samSide T → X < g.1 * samSide T →
        fs[Y * (g.1 * samSide T + 1) + X]? =
          some (loc ((Y / samSide T * g.1 + X / samSide T) * (samSide T * samSide T) + (Y % samSide T * samSide T + X % samSide T)))) ∧
      (∀ Y, Y < g.2 * samSide T → fs[Y * (g.1 * samSide T + 1) + g.1 * samSide T]? = some nl) ∧
      (∀ y x, y < samSide base → x < samSide base →
        fs[g.2 * samSide T * (g.1 * samSide T + 1) + (y * (samSide base + 1) + x)]? = some (glob (y * samSide base + x))) ∧
      (∀ y, y < samSide base →
        fs[g.2 * samSide T * (g.1 * samSide T + 1) + (y * (samSide base + 1) + samSide base)]? = some nl) ∧
      fs.getLast? = some sep := by
  obtain ⟨w, hw⟩ : ∃ w, w = samSide T := ⟨_, rfl⟩
  obtain ⟨b, hb⟩ : ∃ b, b = samSide base := ⟨_, rfl⟩
  have hwpos : 0 < w := by
    rw [hw, samSide_eq hT]
    split_ifs with h
    · unfold queries; have : 0 < T / 16 := by omega
      omega
    · omega
  have hf : features nl sep sum (g.1 * g.2) T base g glob loc =
      some (newlined nl (gridRows (permuted g.1 w w loc) (g.2 * w) (g.1 * w)) ++ newlined nl (gridRows glob b b) ++ [sep]) := by
    rw [features, if_pos hsum, if_pos (Nat.mul_comm _ _), ← hw, ← hb]
  rw [← hw, ← hb]
  have l1 : (newlined nl (gridRows (permuted g.1 w w loc) (g.2 * w) (g.1 * w))).length = g.2 * w * (g.1 * w + 1) := by
    rw [newlined_length nl _ _ (gridRows_length _ _ _).2, (gridRows_length _ _ _).1]
  have l2 : (newlined nl (gridRows glob b b)).length = b * (b + 1) := by
    rw [newlined_length nl _ _ (gridRows_length _ _ _).2, (gridRows_length _ _ _).1]
  have inL : ∀ Y X, Y < g.2 * w → X ≤ g.1 * w → Y * (g.1 * w + 1) + X < g.2 * w * (g.1 * w + 1) := by
    intro Y X hY hX
    have : (Y + 1) * (g.1 * w + 1) ≤ g.2 * w * (g.1 * w + 1) := Nat.mul_le_mul_right _ hY
    rw [Nat.succ_mul] at this
    omega
  have inG : ∀ y x, y < b → x ≤ b → y * (b + 1) + x < b * (b + 1) := by
    intro y x hy hx
    have : (y + 1) * (b + 1) ≤ b * (b + 1) := Nat.mul_le_mul_right _ hy
    rw [Nat.succ_mul] at this
    omega
  refine ⟨_, hf, ?_, ?_, ?_, ?_, ?_, ?_⟩
  · simp only [List.length_append, l1, l2, List.length_cons, List.length_nil]
  · intro Y X hY hX
    have hin := inL Y X hY (by omega)
    rw [List.append_assoc, List.getElem?_append_left (by omega), newlined_get nl _ _ _ hY (by omega), if_neg (by omega)]
    -- the permuted index
    have hg1 : 0 < g.1 := by
      rcases Nat.eq_zero_or_pos g.1 with h | h
      · rw [h] at hX; omega
      · exact h
    have i1 : (Y * (g.1 * w) + X) % w = X % w := by
      rw [← Nat.mul_assoc, Nat.mul_add_mod']
    have i2 : (Y * (g.1 * w) + X) / w = Y * g.1 + X / w := by
      rw [← Nat.mul_assoc, Nat.mul_comm (Y * g.1) w, Nat.mul_add_div hwpos]
    have hXw : X / w < g.1 := by rw [Nat.div_lt_iff_lt_mul hwpos]; exact hX
    have i3 : (Y * g.1 + X / w) % g.1 = X / w := by
      rw [Nat.mul_comm, Nat.mul_add_mod, Nat.mod_eq_of_lt hXw]
    have i4 : (Y * g.1 + X / w) / g.1 = Y := by
      rw [Nat.mul_comm, Nat.mul_add_div hg1, Nat.div_eq_of_lt hXw, Nat.add_zero]
    simp only [permuted, i1, i2, i3, i4]
    congr 2
    ring
  · intro Y hY
    have hin := inL Y (g.1 * w) hY (le_refl _)
    rw [List.append_assoc, List.getElem?_append_left (by omega), newlined_get nl _ _ _ hY (le_refl _), if_pos rfl]
  · intro y x hy hx
    have hin := inG y x hy (by omega)
    rw [List.append_assoc, List.getElem?_append_right (by omega), l1, Nat.add_sub_cancel_left, List.getElem?_append_left (by omega),
      newlined_get nl _ _ _ hy (by omega), if_neg (by omega)]
  · intro y hy
    have hin := inG y b hy (le_refl _)
    rw [List.append_assoc, List.getElem?_append_right (by omega), l1, Nat.add_sub_cancel_left, List.getElem?_append_left (by omega),
      newlined_get nl _ _ _ hy (le_refl _), if_pos rfl]
  · simp

/-- **C170.** A small image: the rows of the whole image, then the separator. -/
theorem C170_features_small (nl sep : V) (ntiles T base : Nat) (g : Nat × Nat) (glob loc : Nat → V) :
    ∃ fs, features nl sep 0 ntiles T base g glob loc = some fs ∧ fs.length = samSide base * (samSide base + 1) + 1 ∧
      (∀ y x, y < samSide base → x < samSide base → fs[y * (samSide base + 1) + x]? = some (glob (y * samSide base + x))) ∧
      (∀ y, y < samSide base → fs[y * (samSide base + 1) + samSide base]? = some nl) ∧
      fs.getLast? = some sep := by
  have l2 : (newlined nl (gridRows glob (samSide base) (samSide base))).length = samSide base * (samSide base + 1) := by
    rw [newlined_length nl _ _ (gridRows_length _ _ _).2, (gridRows_length _ _ _).1]
  have inG : ∀ y x, y < samSide base → x ≤ samSide base → y * (samSide base + 1) + x < samSide base * (samSide base + 1) := by
    intro y x hy hx
    have : (y + 1) * (samSide base + 1) ≤ samSide base * (samSide base + 1) := Nat.mul_le_mul_right _ hy
    rw [Nat.succ_mul] at this
    omega
  refine ⟨newlined nl (gridRows glob (samSide base) (samSide base)) ++ [sep], by simp [features], by simp [l2], ?_, ?_, by simp⟩
  · intro y x hy hx
    have hin := inG y x hy (by omega)
    rw [List.getElem?_append_left (by omega), newlined_get nl _ _ _ hy (by omega), if_neg (by omega)]
  · intro y hy
    have hin := inG y (samSide base) hy (le_refl _)
    rw [List.getElem?_append_left (by omega), newlined_get nl _ _ _ hy (le_refl _), if_pos rfl]

/-! ## The prompt -/

theorem split_none {sep : List Char} : ∀ n {s : List Char}, Token.findSub sep s = none → splitString sep n s = [s]
  | 0, _, _ => rfl
  | n + 1, s, h => by rw [splitString, h]

theorem split_some {sep s : List Char} {n p : Nat} (h : Token.findSub sep s = some p) :
    splitString sep (n + 1) s = s.take p :: splitString sep n (s.drop (p + sep.length)) := by
  rw [splitString, h]

/-- The tag occurs in the text. -/
def Has (s : List Char) : Prop := ∃ i, imageTag <+: s.drop i

/-- `text` with the tag after `s0` has its first tag there, if `s0` has none before. -/
theorem find_tag {s0 s1 : List Char} (h0 : ∀ i, i < s0.length → ¬ imageTag <+: (s0 ++ imageTag ++ s1).drop i) :
    Token.findSub imageTag (s0 ++ imageTag ++ s1) = some s0.length := by
  have hat : imageTag <+: (s0 ++ imageTag ++ s1).drop s0.length := by
    rw [List.append_assoc, List.drop_left]
    exact List.prefix_append _ _
  cases hf : Token.findSub imageTag (s0 ++ imageTag ++ s1) with
  | none => exact absurd hat (Token.findSub_none hf _)
  | some p =>
    obtain ⟨-, a, d⟩ := Token.findSub_some hf
    rcases Nat.lt_trichotomy p s0.length with h | h | h
    · exact absurd a (h0 p h)
    · rw [h]
    · exact absurd hat (d _ h)

/-- **C170.** One image and one tag: begin of sentence, the text before the tag, the slots of the image, the text after
it; the mask selects exactly the slots. -/
theorem C170_prompt (enc : List Char → List Int) (rs : List (Nat × Nat)) (base S w h : Nat) {s0 s1 : List Char}
    (h0 : ∀ i, i < s0.length → ¬ imageTag <+: (s0 ++ imageTag ++ s1).drop i) (h1 : ¬ Has s1) :
    inferPrompt enc rs base S [(w, h)] (s0 ++ imageTag ++ s1) =
      some ([0] ++ enc s0 ++ List.replicate (slots base S (gridOf 640 rs w h)) imageId ++ enc s1,
        List.replicate (1 + (enc s0).length) false ++ List.replicate (slots base S (gridOf 640 rs w h)) true ++
          List.replicate (enc s1).length false) := by
  have hs1 : Token.findSub imageTag s1 = none := by
    cases hf : Token.findSub imageTag s1 with
    | none => rfl
    | some p => exact absurd ⟨p, (Token.findSub_some hf).2.1⟩ h1
  have hlen : (s0 ++ imageTag ++ s1).length = s0.length + 6 + s1.length + 1 := by
    simp [imageTag]; omega
  have hsp : splitString imageTag (s0 ++ imageTag ++ s1).length (s0 ++ imageTag ++ s1) = [s0, s1] := by
    rw [hlen, split_some (find_tag h0), show s0.length + imageTag.length = (s0 ++ imageTag).length by simp, List.drop_left,
      List.append_assoc, List.take_left, split_none _ hs1]
  simp only [inferPrompt, List.cons_ne_nil, if_false, hsp]
  simp [imageTokens_eq, List.replicate_add, List.map_const']

/-- **C170.** Tokens and mask always have the same length. -/
theorem C170_lengths (enc : List Char → List Int) (rs : List (Nat × Nat)) (base S : Nat) {images : List (Nat × Nat)}
    {prompt : List Char} {tok : List Int} {mask : List Bool} (h : inferPrompt enc rs base S images prompt = some (tok, mask)) :
    tok.length = mask.length := by
  simp only [inferPrompt] at h
  split_ifs at h with hi
  simp only [Option.some.injEq, Prod.mk.injEq] at h
  obtain ⟨rfl, rfl⟩ := h
  simp [List.length_flatMap]

/-- **C170.** The service: role, the slots of the first image, the text; the mask selects exactly the slots. -/
theorem C170_service (enc : List Char → List Int) (bos : Int) (rs : List (Nat × Nat)) (w h : Nat) (more : List (Nat × Nat)) (text : List Char) :
    servicePrompt enc bos rs ((w, h) :: more) text =
      ([bos] ++ enc "<|User|>".toList ++ List.replicate (slots 512 512 (gridOf 512 rs w h)) imageId ++
          enc ("\n<|grounding|>".toList ++ text ++ "<|Assistant|>".toList),
        List.replicate (1 + (enc "<|User|>".toList).length) false ++ List.replicate (slots 512 512 (gridOf 512 rs w h)) true ++
          List.replicate (enc ("\n<|grounding|>".toList ++ text ++ "<|Assistant|>".toList)).length false) := by
  simp [servicePrompt, imageTokens_eq, List.replicate_add, List.map_const']

/-! ## As many features as slots -/

/-- **C170.** The image gives as many features as the prompt has slots, where both sides are 64 times an integer (or at
least have a whole number of groups of four patches), the tiles are as large as the prompt assumes and do not sum to
zero. -/
theorem C170_count (nl sep : V) {sum : ℚ} {S base : Nat} (hS : 16 ≤ S) (hB : 16 ≤ base) (dS : 4 ∣ S / 16) (dB : 4 ∣ base / 16)
    (g : Nat × Nat) (hg : sum ≠ 0 ↔ 1 < g.1 ∨ 1 < g.2) (glob loc : Nat → V) :
    ∃ fs, features nl sep sum (g.1 * g.2) S base g glob loc = some fs ∧ fs.length = slots base S g := by
  have eS : samSide S = queries S := by rw [samSide_eq hS, if_pos dS]
  have eB : samSide base = queries base := by rw [samSide_eq hB, if_pos dB]
  by_cases h : sum = 0
  · obtain ⟨fs, e, l, -⟩ := C170_features_small nl sep (g.1 * g.2) S base g glob loc
    refine ⟨fs, by rw [h]; exact e, ?_⟩
    rw [l, slots, if_neg fun hc => hg.mpr hc h, eB]
  · obtain ⟨fs, e, l, -⟩ := C170_features nl sep h (base := base) hS g glob loc
    refine ⟨fs, e, ?_⟩
    rw [l, slots, if_pos (hg.mp h), eB, eS, Nat.mul_comm g.2, Nat.mul_comm g.1]
    omega

/-- **C170, violated.** For any other side of the padded image there are fewer slots than features. -/
theorem C170_base_violated (nl sep : V) {base : Nat} (hB : 16 ≤ base) (dB : ¬ 4 ∣ base / 16) (S T : Nat) (glob loc : Nat → V) :
    ∃ fs, features nl sep 0 0 T base (1, 1) glob loc = some fs ∧ slots base S (1, 1) < fs.length := by
  obtain ⟨fs, e, l, -⟩ := C170_features_small nl sep 0 T base (1, 1) glob loc
  refine ⟨fs, e, ?_⟩
  rw [l, slots, if_neg (by simp), samSide_eq hB, if_neg dB]
  nlinarith [Nat.zero_le (queries base)]

/-- **C170, violated.** `infer` cuts tiles of 640 whatever the tile size it is given: with a smaller one a tiled image
has fewer slots than features. -/
theorem C170_tile_size_violated (nl sep : V) {sum : ℚ} (hsum : sum ≠ 0) {S base : Nat} (hS : S < 640) (hB : 16 ≤ base)
    {g : Nat × Nat} (h1 : 0 < g.1) (h2 : 0 < g.2) (glob loc : Nat → V) :
    ∃ fs, features nl sep sum (g.1 * g.2) 640 base g glob loc = some fs ∧ slots base S g < fs.length := by
  obtain ⟨fs, e, l, -⟩ := C170_features nl sep hsum (base := base) (T := 640) (by decide) g glob loc
  refine ⟨fs, e, ?_⟩
  have e640 : samSide 640 = 10 := by decide
  have hq : queries S ≤ 9 := by unfold queries; omega
  have hb : queries base ≤ samSide base := by rw [samSide_eq hB]; split_ifs <;> omega
  rw [l, e640]
  have hbb : queries base * (queries base + 1) ≤ samSide base * (samSide base + 1) := Nat.mul_le_mul hb (by omega)
  have hll : queries S * g.2 * (queries S * g.1 + 1) < g.2 * 10 * (g.1 * 10 + 1) := by
    apply Nat.mul_lt_mul'' <;> nlinarith
  unfold slots
  split_ifs
  · omega
  · omega

/-- The values of the tiles that sum to zero: as many white as black pixels. -/
theorem sum_black_white (n : Nat) : ((List.replicate n 0 ++ List.replicate n 255).map normPixel).sum = 0 := by
  simp only [List.map_append, List.map_replicate, List.sum_append, List.sum_replicate, normPixel]
  norm_num

/-- **C170, violated.** A large image with as many white as black values: its tiles are taken for missing ones, and it
has fewer features than slots. -/
theorem C170_zero_sum_violated (nl sep : V) (n ntiles : Nat) {S base : Nat} (hS : 64 ≤ S) (hB : 16 ≤ base) (dB : 4 ∣ base / 16)
    {g : Nat × Nat} (hg : 1 < g.1 ∨ 1 < g.2) (h1 : 0 < g.1) (h2 : 0 < g.2) (glob loc : Nat → V) :
    ∃ fs, features nl sep ((List.replicate n 0 ++ List.replicate n 255).map normPixel).sum ntiles S base g glob loc = some fs ∧
      fs.length < slots base S g := by
  rw [sum_black_white]
  obtain ⟨fs, e, l, -⟩ := C170_features_small nl sep ntiles S base g glob loc
  refine ⟨fs, e, ?_⟩
  rw [l, slots, if_pos hg, samSide_eq hB, if_pos dB]
  have hq : 0 < queries S := by unfold queries; omega
  have : 0 < queries S * g.2 * (queries S * g.1 + 1) := by positivity
  omega

/-! ## Other numbers of images and tags -/

/-- **C170, violated.** A prompt without image reads the first image all the same. -/
theorem C170_no_image_violated (enc : List Char → List Int) (rs : List (Nat × Nat)) (base S : Nat) (prompt : List Char) :
    inferPrompt enc rs base S [] prompt = none := by
  simp [inferPrompt]

/-- **C170, violated.** More tags than images: the text between the second-to-last and the last one is left out. -/
theorem C170_more_tags_violated (enc : List Char → List Int) (rs : List (Nat × Nat)) (base S w h : Nat) {s0 s1 s2 : List Char}
    (h0 : ∀ i, i < s0.length → ¬ imageTag <+: (s0 ++ imageTag ++ (s1 ++ imageTag ++ s2)).drop i)
    (h1 : ∀ i, i < s1.length → ¬ imageTag <+: (s1 ++ imageTag ++ s2).drop i) (h2 : ¬ Has s2) :
    (inferPrompt enc rs base S [(w, h)] (s0 ++ imageTag ++ (s1 ++ imageTag ++ s2))).map Prod.fst =
      some ([0] ++ enc s0 ++ List.replicate (slots base S (gridOf 640 rs w h)) imageId ++ enc s2) := by
  have hs2 : Token.findSub imageTag s2 = none := by
    cases hf : Token.findSub imageTag s2 with
    | none => rfl
    | some p => exact absurd ⟨p, (Token.findSub_some hf).2.1⟩ h2
  have hlen : (s0 ++ imageTag ++ (s1 ++ imageTag ++ s2)).length = s0.length + 6 + s1.length + 6 + s2.length + 1 + 1 := by
    simp [imageTag]; omega
  have hsp : splitString imageTag (s0 ++ imageTag ++ (s1 ++ imageTag ++ s2)).length (s0 ++ imageTag ++ (s1 ++ imageTag ++ s2)) = [s0, s1, s2] := by
    rw [hlen, split_some (find_tag h0), show s0.length + imageTag.length = (s0 ++ imageTag).length by simp, List.drop_left,
      List.append_assoc, List.take_left, split_some (find_tag h1), show s1.length + imageTag.length = (s1 ++ imageTag).length by simp,
      List.drop_left, List.append_assoc, List.take_left, split_none _ hs2]
  simp only [inferPrompt, List.cons_ne_nil, if_false, hsp]
  simp [imageTokens_eq]

/-- **C170, violated.** No tag: the text is put twice, before and after the image. -/
theorem C170_no_tag_violated (enc : List Char → List Int) (rs : List (Nat × Nat)) (base S w h : Nat) {s : List Char} (hs : ¬ Has s) :
    (inferPrompt enc rs base S [(w, h)] s).map Prod.fst =
      some ([0] ++ enc s ++ List.replicate (slots base S (gridOf 640 rs w h)) imageId ++ enc s) := by
  have hs2 : Token.findSub imageTag s = none := by
    cases hf : Token.findSub imageTag s with
    | none => rfl
    | some p => exact absurd ⟨p, (Token.findSub_some hf).2.1⟩ hs
  simp only [inferPrompt, List.cons_ne_nil, if_false, split_none _ hs2]
  simp [imageTokens_eq]

/-! ## Non-vacuity -/

/-- The prompt of the example program, the sizes of the paper, a page of 1240 × 1754 pixels. -/
example : (∀ i, i < ([] : List Char).length → ¬ imageTag <+: (([] : List Char) ++ imageTag ++ "\nText.".toList).drop i) ∧
    ¬ Has "\nText.".toList ∧ 4 ∣ 640 / 16 ∧ 4 ∣ 1024 / 16 ∧ gridOf 640 grids29 1240 1754 = (2, 3) ∧
    slots 1024 640 (2, 3) = 903 := by
  refine ⟨by simp, ?_, by decide, by decide, by decide +kernel, by decide⟩
  rintro ⟨i, hi⟩
  have hl := hi.length_le
  rw [List.length_drop] at hl
  have h1 : imageTag.length = 7 := by decide
  have h2 : "\nText.".toList.length = 6 := by decide
  omega

example : ¬ 4 ∣ 672 / 16 ∧ queries 672 = 10 ∧ samSide 672 = 11 := by decide

end Verif.Ocr
