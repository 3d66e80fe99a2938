import Verif.Token.Unicode
import Verif.Token.TrieProps
/-
The WordPiece tokenizer (C27, C45). Source: mllm/preprocessor/tokenizers/WordPiece.cpp.
-/
namespace Verif.Token
section generic
variable {χ : Type} [DecidableEq χ]
set_option linter.unusedSectionVars false

/-! ### Model: subword splitting -/

/-- The inner `while (start < end)`, WordPiece.cpp L236-252: try the first `n` characters of `r`, then one
fewer, …; `p` is the prefix put in front (`##`, or nothing at the start of the word). -/
def longestIn (V : List (List χ)) (p r : List χ) : Nat → Option Nat
  | 0 => none
  | n + 1 => if p ++ r.take (n + 1) ∈ V then some (n + 1) else longestIn V p r n

/-- The outer `while`, L229-262; `none` = `is_bad`. -/
def wpLoop (V : List (List χ)) (cont : List χ) : Nat → List χ → List χ → Option (List (List χ))
  | 0, _, _ => none
  | fuel + 1, p, r =>
    if r = [] then some []
    else
      match longestIn V p r r.length with
      | none => none
      | some n => (wpLoop V cont fuel cont (r.drop n)).map ((p ++ r.take n) :: ·)

/-- `wordpiece_tokenize`, L211-271. -/
def wordpiece (V : List (List χ)) (cont unk : List χ) (maxLen : Nat) (text : List χ) : List (List χ) :=
  if text = [] then []
  else if maxLen < text.length then [unk]
  else (wpLoop V cont (text.length + 1) [] text).getD [unk]

/-! ### Model: special tokens -/

/-- `text.find(w, pos)` on the text from `pos` on: first occurrence. -/
def findSub (w : List χ) : List χ → Option Nat
  | [] => if w = [] then some 0 else none
  | c :: r => if w <+: c :: r then some 0 else (findSub w r).map (· + 1)

/-- Body of the loop over the special tokens, L434-444. -/
def earlier (r : List χ) (acc : Option (Nat × List χ)) (w : List χ) : Option (Nat × List χ) :=
  match findSub w r with
  | none => acc
  | some p =>
    match acc with
    | none => some (p, w)
    | some (q, v) => if p < q then some (p, w) else some (q, v)

/-- `split_special_tokens`, L419-469, on the text from `pos` on. `ws`: the added tokens marked special, in
the order in which the hash map is iterated. `none`: still running after `fuel` rounds. -/
def splitSpecial (ws : List (List χ)) : Nat → List χ → Option (List (List χ))
  | 0, _ => none
  | fuel + 1, r =>
    if r = [] then some []
    else
      match ws.foldl (earlier r) none with
      | none => some [r]
      | some (p, w) =>
        (splitSpecial ws fuel (r.drop (p + w.length))).map fun ps =>
          (if 0 < p then [r.take p] else []) ++ w :: ps

/-! ### Specification -/

/-- `ts` cuts `r` into the longest possible vocabulary entries, left to right; pieces that do not start
the word carry the continuation prefix. -/
inductive Longest (V : List (List χ)) (cont : List χ) : List χ → List χ → List (List χ) → Prop
  | nil (p) : Longest V cont p [] []
  | cons (p x r ts) : x ≠ [] → p ++ x ∈ V → (∀ y, y <+: x ++ r → x.length < y.length → p ++ y ∉ V) →
      Longest V cont cont r ts → Longest V cont p (x ++ r) ((p ++ x) :: ts)

/-! ### Proofs -/

theorem longestIn_some {V : List (List χ)} {p r : List χ} : ∀ {N n : Nat}, longestIn V p r N = some n →
    0 < n ∧ n ≤ N ∧ p ++ r.take n ∈ V ∧ ∀ m, n < m → m ≤ N → p ++ r.take m ∉ V
  | 0, n, h => by simp [longestIn] at h
  | N + 1, n, h => by
    unfold longestIn at h
    split_ifs at h with h1
    · cases h
      exact ⟨by omega, le_refl _, h1, by omega⟩
    · obtain ⟨a, b, c, d⟩ := longestIn_some h
      refine ⟨a, by omega, c, ?_⟩
      intro m h2 h3
      by_cases h4 : m = N + 1
      · subst h4; exact h1
      · exact d m h2 (by omega)

theorem longestIn_none {V : List (List χ)} {p r : List χ} : ∀ {N : Nat}, longestIn V p r N = none →
    ∀ m, 0 < m → m ≤ N → p ++ r.take m ∉ V
  | 0, _, m, h1, h2 => by omega
  | N + 1, h, m, h1, h2 => by
    unfold longestIn at h
    split_ifs at h with h3
    by_cases h4 : m = N + 1
    · subst h4; exact h3
    · exact longestIn_none h m h1 (by omega)

theorem longest_unique {V : List (List χ)} {cont p r : List χ} {a b : List (List χ)} (ha : Longest V cont p r a)
    (hb : Longest V cont p r b) : a = b := by
  induction ha generalizing b with
  | nil p =>
    generalize hr : ([] : List χ) = r at hb
    cases hb with
    | nil => rfl
    | cons _ x r ts h1 => simp at hr; exact absurd hr.1 h1
  | cons p x r ts h1 h2 h3 h4 ih =>
    generalize hr : x ++ r = s at hb
    cases hb with
    | nil => simp at hr; exact absurd hr.1 h1
    | cons _ x' r' ts' h1' h2' h3' h4' =>
      have hx : x = x' := by
        have hp : x <+: x' ++ r' := ⟨r, hr⟩
        have hp' : x' <+: x ++ r := ⟨r', hr.symm⟩
        have h5 : ¬ x.length < x'.length := fun h => h3 x' hp' h h2'
        have h6 : ¬ x'.length < x.length := fun h => h3' x hp h h2
        exact (List.append_inj hr (by omega)).1
      subst hx
      have : r = r' := List.append_cancel_left hr
      subst this
      rw [ih h4']

theorem wpLoop_spec (V : List (List χ)) (cont : List χ) : ∀ (fuel : Nat) (p r : List χ), r.length < fuel →
    match wpLoop V cont fuel p r with
    | some ts => Longest V cont p r ts
    | none => ∀ ts, ¬ Longest V cont p r ts
  | 0, _, _, h => by omega
  | fuel + 1, p, r, h => by
    unfold wpLoop
    by_cases h0 : r = []
    · subst h0; exact .nil p
    rw [if_neg h0]
    have hlen : r.length ≠ 0 := by simpa using h0
    cases hl : longestIn V p r r.length with
    | none =>
      simp only
      intro ts hts
      cases hts with
      | nil => exact h0 rfl
      | cons _ x r' ts' h1 h2 h3 h4 =>
        have hx : x.length ≠ 0 := by simpa using h1
        have := longestIn_none hl x.length (by omega) (by simp)
        simp [h2] at this
    | some n =>
      obtain ⟨a, b, c, d⟩ := longestIn_some hl
      simp only
      have hmax : ∀ y, y <+: r.take n ++ r.drop n → (r.take n).length < y.length → p ++ y ∉ V := by
        intro y hy hly
        rw [List.take_append_drop] at hy
        have hyr := hy.length_le
        have := d y.length (by rw [List.length_take] at hly; omega) hyr
        rwa [← List.prefix_iff_eq_take.mp hy] at this
      have hne : r.take n ≠ [] := by
        intro h1
        have h2 := congrArg List.length h1
        rw [List.length_take, List.length_nil] at h2; omega
      have ih := wpLoop_spec V cont fuel cont (r.drop n) (by simp; omega)
      cases hw : wpLoop V cont fuel cont (r.drop n) with
      | some ts =>
        rw [hw] at ih
        have := Longest.cons (cont := cont) p (r.take n) (r.drop n) ts hne c hmax ih
        rw [List.take_append_drop] at this
        exact this
      | none =>
        rw [hw] at ih
        simp only [Option.map_none]
        intro ts hts
        rw [← List.take_append_drop n r] at hts
        generalize hr : r.take n ++ r.drop n = s at hts
        cases hts with
        | nil => exact hne (List.append_eq_nil_iff.mp hr).1
        | cons _ x' r' ts' h1' h2' h3' h4' =>
          have hx : r.take n = x' := by
            have hp : r.take n <+: x' ++ r' := ⟨_, hr⟩
            have hp' : x' <+: r.take n ++ r.drop n := ⟨r', hr.symm⟩
            have h5 : ¬ (r.take n).length < x'.length := fun h => hmax x' hp' h h2'
            have h6 : ¬ x'.length < (r.take n).length := fun h => h3' _ hp h c
            exact (List.append_inj hr (by omega)).1
          rw [hx] at hr
          have := List.append_cancel_left hr
          rw [this] at ih
          exact ih _ h4'

/-- C27. For every vocabulary and word (not longer than the limit): the result is the unique cutting of
the word into the longest possible vocabulary entries from left to right, if there is one; otherwise it is
the unknown token alone. -/
theorem wordpiece_spec (V : List (List χ)) (cont unk : List χ) (maxLen : Nat) (text : List χ) (h0 : text ≠ [])
    (hlen : text.length ≤ maxLen) :
    (∀ ts, Longest V cont [] text ts → wordpiece V cont unk maxLen text = ts) ∧
    ((¬ ∃ ts, Longest V cont [] text ts) → wordpiece V cont unk maxLen text = [unk]) := by
  unfold wordpiece
  rw [if_neg h0, if_neg (by omega)]
  have := wpLoop_spec V cont (text.length + 1) [] text (by omega)
  cases hw : wpLoop V cont (text.length + 1) [] text with
  | some ts =>
    rw [hw] at this
    refine ⟨fun ts' h => by simpa using longest_unique this h, fun h => absurd ⟨ts, this⟩ h⟩
  | none =>
    rw [hw] at this
    exact ⟨fun ts h => absurd h (this ts), fun _ => rfl⟩

/-- C27. The only word without tokens is the empty one; longer words than the limit become the unknown
token. -/
theorem wordpiece_edge (V : List (List χ)) (cont unk : List χ) (maxLen : Nat) (text : List χ) :
    (wordpiece V cont unk maxLen text = [] ↔ text = []) ∧
    (maxLen < text.length → text ≠ [] → wordpiece V cont unk maxLen text = [unk]) := by
  constructor
  · constructor
    · intro h
      by_contra h0
      by_cases hl : text.length ≤ maxLen
      · by_cases hex : ∃ ts, Longest V cont [] text ts
        · obtain ⟨ts, hts⟩ := hex
          rw [(wordpiece_spec V cont unk maxLen text h0 hl).1 ts hts] at h
          subst h
          cases hts
          exact h0 rfl
        · rw [(wordpiece_spec V cont unk maxLen text h0 hl).2 hex] at h
          simp at h
      · unfold wordpiece at h
        rw [if_neg h0, if_pos (by omega)] at h
        simp at h
    · rintro rfl; rfl
  · intro h h0
    unfold wordpiece
    rw [if_neg h0, if_pos h]

/-- C27. Every token produced is in the vocabulary or is the unknown token. -/
theorem wordpiece_in_vocab (V : List (List χ)) (cont unk : List χ) (maxLen : Nat) (text : List χ) :
    ∀ t ∈ wordpiece V cont unk maxLen text, t ∈ V ∨ t = unk := by
  have hL : ∀ p r ts, Longest V cont p r ts → ∀ t ∈ ts, t ∈ V := by
    intro p r ts h
    induction h with
    | nil => simp
    | cons p x r ts h1 h2 h3 h4 ih =>
      intro t ht
      rcases List.mem_cons.mp ht with rfl | ht
      · exact h2
      · exact ih t ht
  intro t ht
  by_cases h0 : text = []
  · subst h0; simp [wordpiece] at ht
  by_cases hl : text.length ≤ maxLen
  · by_cases hex : ∃ ts, Longest V cont [] text ts
    · obtain ⟨ts, hts⟩ := hex
      rw [(wordpiece_spec V cont unk maxLen text h0 hl).1 ts hts] at ht
      exact Or.inl (hL _ _ _ hts t ht)
    · rw [(wordpiece_spec V cont unk maxLen text h0 hl).2 hex] at ht
      exact Or.inr (by simpa using ht)
  · rw [(wordpiece_edge V cont unk maxLen text).2 (by omega) h0] at ht
    exact Or.inr (by simpa using ht)

/-! ### Special tokens -/

theorem findSub_some {w : List χ} : ∀ {r : List χ} {p : Nat}, findSub w r = some p →
    p ≤ r.length ∧ w <+: r.drop p ∧ ∀ i, i < p → ¬ w <+: r.drop i
  | [], p, h => by
    unfold findSub at h
    split_ifs at h with h1
    cases h
    subst h1
    simp
  | c :: r, p, h => by
    unfold findSub at h
    split_ifs at h with h1
    · cases h; exact ⟨by simp, h1, by omega⟩
    · cases hf : findSub w r with
      | none => rw [hf] at h; simp at h
      | some q =>
        rw [hf] at h
        have : p = q + 1 := by simpa using h.symm
        subst this
        obtain ⟨a, b, d⟩ := findSub_some hf
        refine ⟨by simpa using a, by simpa using b, ?_⟩
        intro i hi
        cases i with
        | zero => exact h1
        | succ i => exact d i (by omega)

theorem findSub_none {w : List χ} : ∀ {r : List χ}, findSub w r = none → ∀ i, ¬ w <+: r.drop i
  | [], h, i => by
    unfold findSub at h
    split_ifs at h with h1
    simpa using h1
  | c :: r, h, i => by
    unfold findSub at h
    split_ifs at h with h1
    cases i with
    | zero => exact h1
    | succ i =>
      have : findSub w r = none := by simpa using h
      exact findSub_none this i

theorem foldl_earlier (r : List χ) : ∀ (ws : List (List χ)) (acc : Option (Nat × List χ)),
    match ws.foldl (earlier r) acc with
    | none => acc = none ∧ ∀ w ∈ ws, findSub w r = none
    | some (p, w) => (acc = some (p, w) ∨ (w ∈ ws ∧ findSub w r = some p)) ∧
        (∀ q v, acc = some (q, v) → p ≤ q) ∧ ∀ v ∈ ws, ∀ q, findSub v r = some q → p ≤ q
  | [], acc => by
    cases acc with
    | none => simp
    | some a =>
      obtain ⟨p, w⟩ := a
      refine ⟨Or.inl rfl, ?_, by simp⟩
      intro q v h
      cases h; exact le_refl _
  | w :: ws, acc => by
    rw [List.foldl_cons]
    have ih := foldl_earlier r ws (earlier r acc w)
    cases hf : ws.foldl (earlier r) (earlier r acc w) with
    | none =>
      rw [hf] at ih
      obtain ⟨h1, h2⟩ := ih
      have : acc = none ∧ findSub w r = none := by
        unfold earlier at h1
        cases hw : findSub w r with
        | none => rw [hw] at h1; exact ⟨h1, rfl⟩
        | some p =>
          rw [hw] at h1
          cases acc with
          | none => simp at h1
          | some a => obtain ⟨q, v⟩ := a; simp only at h1; split_ifs at h1
      refine ⟨this.1, ?_⟩
      intro v hv
      rcases List.mem_cons.mp hv with rfl | hv
      · exact this.2
      · exact h2 v hv
    | some a =>
      obtain ⟨p, v⟩ := a
      rw [hf] at ih
      obtain ⟨h1, h2, h3⟩ := ih
      have key : (∀ q u, acc = some (q, u) → ∃ q' u', earlier r acc w = some (q', u') ∧ q' ≤ q) ∧
          (∀ q, findSub w r = some q → ∃ q' u', earlier r acc w = some (q', u') ∧ q' ≤ q) ∧
          (∀ q u, earlier r acc w = some (q, u) → acc = some (q, u) ∨ (u = w ∧ findSub w r = some q)) := by
        unfold earlier
        cases hw : findSub w r with
        | none => exact ⟨fun q u h => ⟨q, u, h, le_refl _⟩, by simp, fun q u h => Or.inl h⟩
        | some p =>
          cases acc with
          | none => 
            refine ⟨by simp, ?_, ?_⟩
            · intro q h; cases h; exact ⟨_, _, rfl, le_refl _⟩
            · intro q u h; cases h; exact Or.inr ⟨rfl, rfl⟩
          | some a =>
            obtain ⟨q0, v0⟩ := a
            simp only
            by_cases hlt : p < q0
            · simp only [hlt, if_true]
              refine ⟨?_, ?_, ?_⟩
              · intro q u h; cases h; exact ⟨_, _, rfl, by omega⟩
              · intro q h; cases h; exact ⟨_, _, rfl, le_refl _⟩
              · intro q u h; cases h; exact Or.inr ⟨rfl, rfl⟩
            · simp only [hlt, if_false]
              refine ⟨?_, ?_, ?_⟩
              · intro q u h; cases h; exact ⟨_, _, rfl, le_refl _⟩
              · intro q h; cases h; exact ⟨_, _, rfl, by omega⟩
              · intro q u h; exact Or.inl h
      refine ⟨?_, ?_, ?_⟩
      · rcases h1 with h1 | ⟨h1, h1'⟩
        · rcases key.2.2 p v h1 with h | ⟨rfl, h⟩
          · exact Or.inl h
          · exact Or.inr ⟨by simp, h⟩
        · exact Or.inr ⟨by simp [h1], h1'⟩
      · intro q u h
        obtain ⟨q', u', e, hq⟩ := key.1 q u h
        have := h2 q' u' e
        omega
      · intro u hu q hq
        rcases List.mem_cons.mp hu with rfl | hu
        · obtain ⟨q', u', e, hq'⟩ := key.2.1 q hq
          have := h2 q' u' e
          omega
        · exact h3 u hu q hq

/-- C45. With special tokens none of which is empty or a prefix of another, the special tokens of the text
are cut out from left to right and the text between them is kept, whatever order the hash map is iterated
in. -/
theorem split_special_spec (ws : List (List χ)) (hne : ∀ w ∈ ws, w ≠ []) (hpf : PrefixFree ws) :
    ∀ (fuel : Nat) (r : List χ), r.length < fuel → splitSpecial ws fuel r = some (greedy ws [] r)
  | 0, _, h => by omega
  | fuel + 1, r, h => by
    unfold splitSpecial
    by_cases h0 : r = []
    · subst h0; simp [greedy, flush]
    rw [if_neg h0]
    have hfold := foldl_earlier r ws none
    cases hf : ws.foldl (earlier r) none with
    | none =>
      rw [hf] at hfold
      have := greedy_run (ws := ws) r [] [] (by
        intro u v huv hv w hw _ hpre
        apply findSub_none (hfold.2 w hw) u.length
        rw [huv, List.drop_left]
        simpa using hpre)
      simp only [List.append_nil] at this
      rw [this]
      simp [greedy, flush, h0]
    | some a =>
      obtain ⟨p, w⟩ := a
      rw [hf] at hfold
      obtain ⟨h1, -, h3⟩ := hfold
      have h1 : w ∈ ws ∧ findSub w r = some p := by
        rcases h1 with h1 | h1
        · simp at h1
        · exact h1
      obtain ⟨hp1, hp2, hp3⟩ := findSub_some h1.2
      obtain ⟨t, ht⟩ := hp2
      have hw0 := hne w h1.1
      have hwl : w.length ≠ 0 := by simpa using hw0
      have hdrop : r.drop (p + w.length) = t := by
        rw [← List.drop_drop, ← ht, List.drop_left]
      have hrt : r = r.take p ++ (w ++ t) := by rw [ht, List.take_append_drop]
      have hlen : t.length < fuel := by
        rw [← hdrop]; simp only [List.length_drop]
        have : r.length ≠ 0 := by simpa using h0
        omega
      have ih := split_special_spec ws hne hpf fuel t hlen
      simp only
      rw [hdrop, ih, Option.map_some]
      conv_rhs => rw [hrt]
      rw [greedy_run (ws := ws) (r.take p) [] (w ++ t) (by
        intro u v huv hv x hx _ hpre
        have hul : u.length < p := by
          have h5 := congrArg List.length huv
          have h6 : v.length ≠ 0 := by simpa using hv
          simp at h5; omega
        have hdu : r.drop u.length = v ++ (w ++ t) := by
          conv_lhs => rw [hrt, huv, List.append_assoc, List.drop_left]
        cases hfx : findSub x r with
        | none => exact findSub_none hfx u.length (by rw [hdu]; exact hpre)
        | some q =>
          have h7 := h3 x hx q hfx
          exact (findSub_some hfx).2.2 u.length (by omega) (by rw [hdu]; exact hpre)),
        greedy_match hpf _ w t h1.1 hw0]
      congr 1
      unfold flush
      by_cases hp0 : 0 < p
      · rw [if_pos hp0, if_neg]
        · simp
        · intro h8
          have h9 := congrArg List.length h8
          have : r.length ≠ 0 := by simpa using h0
          rw [List.append_nil, List.length_reverse, List.length_take, List.length_nil] at h9; omega
      · have : p = 0 := by omega
        subst this
        simp

/-- C45. The iteration order of the hash map of special tokens does not matter (same conditions). -/
theorem split_special_order_partial (ws ws' : List (List χ)) (hperm : ws.Perm ws') (hne : ∀ w ∈ ws, w ≠ [])
    (hpf : PrefixFree ws) (text : List χ) (fuel : Nat) (hf : text.length < fuel) :
    splitSpecial ws fuel text = splitSpecial ws' fuel text := by
  have hpf' : PrefixFree ws' := fun v hv w hw => hpf v (hperm.mem_iff.mpr hv) w (hperm.mem_iff.mpr hw)
  have hne' : ∀ w ∈ ws', w ≠ [] := fun w hw => hne w (hperm.mem_iff.mpr hw)
  rw [split_special_spec ws hne hpf fuel text hf, split_special_spec ws' hne' hpf' fuel text hf]
  congr 1
  have hm : ∀ r : List χ, matchAt ws r = matchAt ws' r := by
    intro r
    cases h1 : matchAt ws r with
    | none =>
      symm
      apply matchAt_none
      intro w hw h0 hp
      rw [matchAt_some hpf (hperm.mem_iff.mpr hw) h0 hp] at h1
      simp at h1
    | some w =>
      symm
      unfold matchAt at h1
      have h2 := List.mem_of_find?_eq_some h1
      have h3 := List.find?_some h1
      simp only [decide_eq_true_eq] at h3
      exact matchAt_some hpf' (hperm.mem_iff.mp h2) h3.1 h3.2
  suffices h : ∀ (n : Nat) (r acc : List χ), r.length ≤ n → greedy ws acc r = greedy ws' acc r by
    exact h _ text [] le_rfl
  intro n
  induction n with
  | zero =>
    intro r acc h
    have : r = [] := List.length_eq_zero_iff.mp (by omega)
    subst this; simp [greedy]
  | succ n ih =>
    intro r acc h
    cases r with
    | nil => simp [greedy]
    | cons c r =>
      simp only [List.length_cons] at h
      rw [greedy, greedy, hm]
      cases matchAt ws' (c :: r) with
      | none => exact ih r _ (by omega)
      | some w => simp only; rw [ih _ _ (by simp; omega)]

/-- C45 violated: an empty special token keeps the loop from ever ending, on every non-empty text. -/
theorem split_special_diverges_violated (text : List χ) (h : text ≠ []) (fuel : Nat) :
    splitSpecial [[]] fuel text = none := by
  induction fuel with
  | zero => rfl
  | succ n ih =>
    unfold splitSpecial
    rw [if_neg h]
    have : [([] : List χ)].foldl (earlier text) none = some (0, []) := by
      cases text with
      | nil => exact absurd rfl h
      | cons c r => simp [earlier, findSub]
    rw [this]
    simp [ih]

end generic

/-- C45 violated: with one special token a prefix of another, the result depends on the iteration order of
the hash map. -/
theorem split_special_order_violated :
    ∃ (ws ws' : List (List Char)) (text : List Char), ws.Perm ws' ∧
      splitSpecial ws 9 text = some ["[A".toList, "B]".toList] ∧
      splitSpecial ws' 9 text = some ["[AB]".toList] :=
  ⟨["[A".toList, "[AB]".toList], ["[AB]".toList, "[A".toList], "[AB]".toList, List.Perm.swap _ _ _,
    by decide +kernel, by decide +kernel⟩

/-- The hypotheses are met, e.g. by the BERT special tokens. -/
example : (∀ w ∈ ["[CLS]".toList, "[SEP]".toList], w ≠ []) ∧ PrefixFree ["[CLS]".toList, "[SEP]".toList] ∧
    splitSpecial ["[CLS]".toList, "[SEP]".toList] 20 "[CLS]a b[SEP]".toList
      = some ["[CLS]".toList, "a b".toList, "[SEP]".toList] :=
  ⟨by decide, by simp [PrefixFree], by decide +kernel⟩

example : wordpiece ["un".toList, "##aff".toList, "##able".toList, "##a".toList] "##".toList "[UNK]".toList 200
    "unaffable".toList = ["un".toList, "##aff".toList, "##able".toList] := by decide +kernel

end Verif.Token
