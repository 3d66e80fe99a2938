import Verif.Prelude
import Mathlib.Data.List.Infix
import Mathlib.Data.List.Sort
/-
Special-token splitting (C24). Source: mllm/preprocessor/tokenizers/AutoTokenizer.cpp `Trie::add`,
`Trie::split` (L14-113); `TrieUTF8::split` (L130-230) is the same algorithm over code points.
-/
namespace Verif.Token
variable {χ : Type} [DecidableEq χ]
set_option linter.unusedSectionVars false

/-- `TrieNode`: `unordered_map` children as a partial function. -/
inductive TNode (χ : Type) where
  | mk (isEnd : Bool) (child : χ → Option (TNode χ))

def TNode.isEnd : TNode χ → Bool
  | .mk e _ => e

def TNode.child : TNode χ → χ → Option (TNode χ)
  | .mk _ k => k

def TNode.empty : TNode χ := .mk false fun _ => none

/-- Insertion below a node, AutoTokenizer.cpp L18-25. -/
def TNode.insert : List χ → TNode χ → TNode χ
  | [], .mk _ k => .mk true k
  | c :: w, .mk e k => .mk e fun x => if x = c then some (insert w ((k c).getD .empty)) else k x

/-- `Trie::add`, L14-26: the empty word is ignored. -/
def trieAdd (t : TNode χ) (w : List χ) : TNode χ := if w = [] then t else t.insert w

/-- `Trie::update`, L28-30. -/
def trieOf (ws : List (List χ)) : TNode χ := ws.foldl trieAdd .empty

/-- The active partial matches, a `std::map` ordered by start position. -/
abbrev States (χ : Type) := List (Nat × TNode χ)

/-- The lookahead `while`, L58-71: returns the last node reached, `start`, `end`, `skip`. -/
def runAhead (ls : Nat) : List χ → Nat → TNode χ → Nat → Nat → Nat → TNode χ × Nat × Nat × Nat
  | [], _, ptr, start, fin, skip => (ptr, start, fin, skip)
  | ch :: rest, la, ptr, start, fin, skip =>
    match ptr.child ch with
    | none => (ptr, start, fin, skip)
    | some p =>
      if p.isEnd then runAhead ls rest (la + 1) p ls (la + 1) (la + 1)
      else runAhead ls rest (la + 1) p start fin skip

/-- The loop over all states once one of them is at a word end, L50-74: returns `start`, `max_end`,
`skip`. -/
def lookLoop (text : List χ) (current : Nat) : States χ → Nat → Nat → Nat → Nat × Nat × Nat
  | [], start, maxEnd, skip => (start, maxEnd, skip)
  | (ls, ln) :: rest, start, maxEnd, skip =>
    if start < ls then (start, maxEnd, skip)
    else
      let la := if ls < start then current + 1 else current
      let r := runAhead ls (text.drop la) la ln start la skip
      let maxEnd' := if r.1.isEnd ∧ maxEnd < r.2.2.1 then r.2.2.1 else maxEnd
      lookLoop text current rest r.2.1 maxEnd' r.2.2.2

/-- The loop over the states for one character, L44-85. `done` are the states already advanced, `rem`
the starts to remove. Left: a match `(start, max_end, skip)`; right: states and `to_remove`. -/
def advance (text : List χ) (current : Nat) (ch : χ) (skip : Nat) :
    States χ → States χ → List Nat → (Nat × Nat × Nat) ⊕ (States χ × List Nat)
  | done, [], rem => .inr (done, rem)
  | done, (start, node) :: rest, rem =>
    if node.isEnd then
      .inl (lookLoop text current (done ++ (start, node) :: rest) start current skip)
    else
      match node.child ch with
      | some n => advance text current ch skip (done ++ [(start, n)]) rest rem
      | none => advance text current ch skip (done ++ [(start, node)]) rest (start :: rem)

structure SplitSt (χ : Type) where
  states : States χ
  offsets : List Nat
  skip : Nat

/-- One iteration of the main loop, L36-92. `states[current] = …` adds the largest key. -/
def splitStep (root : TNode χ) (text : List χ) (current : Nat) (ch : χ) (s : SplitSt χ) : SplitSt χ :=
  if current < s.skip then s
  else
    let s' : SplitSt χ :=
      match advance text current ch s.skip [] s.states [] with
      | .inl (start, maxEnd, skip) => ⟨[], s.offsets ++ [start, maxEnd], skip⟩
      | .inr (sts, rem) => ⟨sts.filter fun x => x.1 ∉ rem, s.offsets, s.skip⟩
    match root.child ch with
    | some n => if s'.skip ≤ current then { s' with states := s'.states ++ [(current, n)] } else s'
    | none => s'

def splitLoop (root : TNode χ) (text : List χ) : Nat → List χ → SplitSt χ → SplitSt χ
  | _, [], s => s
  | current, ch :: rest, s => splitLoop root text (current + 1) rest (splitStep root text current ch s)

/-- Cutting at the sorted offsets, L101-106. -/
def cut (text : List χ) : List Nat → List (List χ)
  | a :: b :: r => (if a ≠ b then [(text.drop a).take (b - a)] else []) ++ cut text (b :: r)
  | [a] => if a ≠ text.length then [text.drop a] else []
  | [] => []

/-- Final check of the states at the end of the text, L93-99. -/
def endOffsets (text : List χ) (s : SplitSt χ) : List Nat :=
  match s.states.find? (fun x => x.2.isEnd) with
  | some (start, _) => s.offsets ++ [start, text.length]
  | none => s.offsets

/-- `Trie::split(text)`, L32-108, for the tokens added so far. -/
def trieSplit (ws : List (List χ)) (text : List χ) : List (List χ) :=
  cut text ((endOffsets text (splitLoop (trieOf ws) text 0 text ⟨[], [0], 0⟩)).insertionSort (· ≤ ·))

/-! ### C24a: the pieces partition the text -/


theorem runAhead_bound (ls B : Nat) : ∀ (rest : List χ) (la : Nat) (ptr : TNode χ) (start fin skip : Nat),
    la + rest.length ≤ B → ls ≤ B → start ≤ B → fin ≤ B →
    (runAhead ls rest la ptr start fin skip).2.1 ≤ B ∧ (runAhead ls rest la ptr start fin skip).2.2.1 ≤ B
  | [], la, ptr, start, fin, skip, _, _, h1, h2 => ⟨h1, h2⟩
  | ch :: rest, la, ptr, start, fin, skip, h, hl, h1, h2 => by
    simp only [List.length_cons] at h
    unfold runAhead
    cases ptr.child ch with
    | none => exact ⟨h1, h2⟩
    | some p =>
      simp only
      split_ifs
      · exact runAhead_bound ls B rest _ _ _ _ _ (by omega) hl hl (by omega)
      · exact runAhead_bound ls B rest _ _ _ _ _ (by omega) hl h1 h2


theorem lookLoop_bound (text : List χ) (current : Nat) (hc : current < text.length) :
    ∀ (sts : States χ) (start maxEnd skip : Nat), (∀ x ∈ sts, x.1 ≤ text.length) →
    start ≤ text.length → maxEnd ≤ text.length →
    (lookLoop text current sts start maxEnd skip).1 ≤ text.length ∧
      (lookLoop text current sts start maxEnd skip).2.1 ≤ text.length
  | [], start, maxEnd, skip, _, h1, h2 => ⟨h1, h2⟩
  | (ls, ln) :: rest, start, maxEnd, skip, hs, h1, h2 => by
    unfold lookLoop
    by_cases h3 : start < ls
    · rw [if_pos h3]; exact ⟨h1, h2⟩
    · rw [if_neg h3]
      simp only
      have hla : (if ls < start then current + 1 else current) ≤ text.length := by split_ifs <;> omega
      have hb := runAhead_bound ls text.length (text.drop (if ls < start then current + 1 else current))
        (if ls < start then current + 1 else current) ln start
        (if ls < start then current + 1 else current) skip (by simp; omega) (hs (ls, ln) (by simp)) h1 hla
      apply lookLoop_bound text current hc rest
      · intro x hx; exact hs x (by simp [hx])
      · exact hb.1
      · generalize (if ls < start then current + 1 else current) = la at hb
        split
        · exact hb.2
        · exact h2


theorem advance_bound (text : List χ) (current : Nat) (hc : current < text.length) (ch : χ) (skip : Nat) :
    ∀ (todo done : States χ) (rem : List Nat), (∀ x ∈ done ++ todo, x.1 ≤ text.length) →
    match advance text current ch skip done todo rem with
    | .inl r => r.1 ≤ text.length ∧ r.2.1 ≤ text.length
    | .inr r => ∀ x ∈ r.1, x.1 ≤ text.length
  | [], done, rem, h => by simpa [advance] using h
  | (start, node) :: rest, done, rem, h => by
    unfold advance
    split_ifs with he
    · exact lookLoop_bound text current hc _ _ _ _ h (h (start, node) (by simp)) (by omega)
    · have hrest : ∀ n, ∀ x ∈ (done ++ [(start, n)]) ++ rest, x.1 ≤ text.length := by
        intro n x hx
        simp only [List.append_assoc, List.cons_append, List.nil_append, List.mem_append, List.mem_cons] at hx
        rcases hx with hx | rfl | hx
        · exact h x (by simp [hx])
        · exact h (start, node) (by simp)
        · exact h x (by simp [hx])
      cases node.child ch with
      | some n => exact advance_bound text current hc ch skip rest _ rem (hrest n)
      | none => exact advance_bound text current hc ch skip rest _ _ (hrest node)

/-- All recorded positions are inside the text. -/
def SplitSt.Bounded (B : Nat) (s : SplitSt χ) : Prop :=
  (∀ x ∈ s.states, x.1 ≤ B) ∧ ∀ o ∈ s.offsets, o ≤ B


theorem splitStep_bounded (root : TNode χ) (text : List χ) (current : Nat) (hc : current < text.length) (ch : χ)
    (s : SplitSt χ) (h : s.Bounded text.length) : (splitStep root text current ch s).Bounded text.length := by
  unfold splitStep
  split_ifs with h1
  · exact h
  · have ha := advance_bound text current hc ch s.skip s.states [] [] (by simpa using h.1)
    have hs' : ∀ s' : SplitSt χ, s'.Bounded text.length →
        (match root.child ch with
          | some n => if s'.skip ≤ current then { s' with states := s'.states ++ [(current, n)] } else s'
          | none => s').Bounded text.length := by
      intro s' hb
      cases root.child ch with
      | none => exact hb
      | some n =>
        simp only
        split_ifs
        · refine ⟨?_, hb.2⟩
          intro x hx
          simp only [List.mem_append, List.mem_cons, List.not_mem_nil, or_false] at hx
          rcases hx with hx | rfl
          · exact hb.1 x hx
          · exact Nat.le_of_lt hc
        · exact hb
    apply hs'
    cases hadv : advance text current ch s.skip [] s.states [] with
    | inl r =>
      obtain ⟨a, b, c⟩ := r
      rw [hadv] at ha
      refine ⟨by simp, ?_⟩
      intro o ho
      simp only [List.mem_append, List.mem_cons, List.not_mem_nil, or_false] at ho
      rcases ho with ho | rfl | rfl
      · exact h.2 o ho
      · exact ha.1
      · exact ha.2
    | inr r =>
      obtain ⟨a, b⟩ := r
      rw [hadv] at ha
      refine ⟨?_, h.2⟩
      intro x hx
      exact ha x (List.mem_filter.mp hx).1


theorem splitLoop_bounded (root : TNode χ) (text : List χ) : ∀ (rest : List χ) (current : Nat) (s : SplitSt χ),
    current + rest.length = text.length → s.Bounded text.length →
    (splitLoop root text current rest s).Bounded text.length
  | [], _, s, _, h => h
  | ch :: rest, current, s, hl, h => by
    simp only [List.length_cons] at hl
    exact splitLoop_bounded root text rest _ _ (by omega)
      (splitStep_bounded root text current (by omega) ch s h)


theorem splitStep_offsets (root : TNode χ) (text : List χ) (current : Nat) (ch : χ) (s : SplitSt χ) :
    ∃ t, (splitStep root text current ch s).offsets = s.offsets ++ t := by
  unfold splitStep
  split_ifs
  · exact ⟨[], by simp⟩
  · have hs' : ∀ s' : SplitSt χ,
        (match root.child ch with
          | some n => if s'.skip ≤ current then { s' with states := s'.states ++ [(current, n)] } else s'
          | none => s').offsets = s'.offsets := by
      intro s'
      cases root.child ch with
      | none => rfl
      | some n => simp only; split_ifs <;> rfl
    simp only
    rw [hs']
    cases advance text current ch s.skip [] s.states [] with
    | inl r => exact ⟨_, rfl⟩
    | inr r => exact ⟨[], by simp⟩


theorem splitLoop_offsets (root : TNode χ) (text : List χ) : ∀ (rest : List χ) (current : Nat) (s : SplitSt χ),
    ∃ t, (splitLoop root text current rest s).offsets = s.offsets ++ t
  | [], _, s => ⟨[], by simp [splitLoop]⟩
  | ch :: rest, current, s => by
    obtain ⟨t1, h1⟩ := splitStep_offsets root text current ch s
    obtain ⟨t2, h2⟩ := splitLoop_offsets root text rest (current + 1) (splitStep root text current ch s)
    exact ⟨t1 ++ t2, by rw [splitLoop, h2, h1, List.append_assoc]⟩


theorem cut_flatten (text : List χ) : ∀ (os : List Nat) (a : Nat), (a :: os).Pairwise (· ≤ ·) →
    (∀ o ∈ a :: os, o ≤ text.length) → (cut text (a :: os)).flatten = text.drop a
  | [], a, _, h => by
    unfold cut
    split_ifs with h1
    · simp
    · simp only [ne_eq, not_not] at h1
      simp [h1]
  | b :: os, a, hp, h => by
    have hab : a ≤ b := (List.pairwise_cons.mp hp).1 b (by simp)
    rw [cut, List.flatten_append, cut_flatten text os b (List.pairwise_cons.mp hp).2
      (fun o ho => h o (by simp only [List.mem_cons] at ho ⊢; tauto))]
    split_ifs with h1
    · have : text.drop b = (text.drop a).drop (b - a) := by rw [List.drop_drop]; congr 1; omega
      rw [List.flatten_singleton, this, List.take_append_drop]
    · simp only [ne_eq, not_not] at h1
      simp [h1]

/-- C24. Whatever the added tokens and the text: the pieces, in order, are the text. -/
theorem split_partition (ws : List (List χ)) (text : List χ) : (trieSplit ws text).flatten = text := by
  unfold trieSplit
  set s := splitLoop (trieOf ws) text 0 text ⟨[], [0], 0⟩ with hs
  have hb : s.Bounded text.length := splitLoop_bounded _ _ _ _ _ (by simp) ⟨by simp, by simp⟩
  have h0 : 0 ∈ s.offsets := by
    obtain ⟨t, ht⟩ := splitLoop_offsets (trieOf ws) text text 0 ⟨[], [0], 0⟩
    rw [hs, ht]; simp
  set os := endOffsets text s with hos
  have hob : ∀ o ∈ os, o ≤ text.length := by
    intro o ho
    rw [hos] at ho
    unfold endOffsets at ho
    cases hf : s.states.find? (fun x => x.2.isEnd) with
    | none => rw [hf] at ho; exact hb.2 o ho
    | some x =>
      obtain ⟨st, nd⟩ := x
      rw [hf] at ho
      simp only [List.mem_append, List.mem_cons, List.not_mem_nil, or_false] at ho
      rcases ho with ho | rfl | rfl
      · exact hb.2 o ho
      · exact hb.1 _ (List.mem_of_find?_eq_some hf)
      · exact le_refl _
  have h0' : 0 ∈ os := by
    rw [hos]; unfold endOffsets
    split
    · simp [h0]
    · exact h0
  have hperm := List.perm_insertionSort (r := (· ≤ ·)) os
  have hsort : (os.insertionSort (· ≤ ·)).Pairwise (· ≤ ·) := by
    exact List.pairwise_insertionSort (· ≤ ·) os
  cases hl : os.insertionSort (· ≤ ·) with
  | nil =>
    have := hperm.mem_iff.mpr h0'
    rw [hl] at this; simp at this
  | cons a r =>
    rw [hl] at hsort hperm
    have ha : a = 0 := by
      have := hperm.mem_iff.mpr h0'
      rcases List.mem_cons.mp this with h | h
      · exact h.symm
      · have := (List.pairwise_cons.mp hsort).1 0 h; omega
    rw [cut_flatten text r a hsort (fun o ho => hob o (hperm.mem_iff.mp ho)), ha]
    rfl

end Verif.Token
