import Verif.Prelude
import Mathlib.Data.List.Infix
/-
BPE merging (C23). Sources: mllm/preprocessor/tokenizers/BPE.cpp `_bpe`, `_get_pairs`; the same algorithm
is repeated in BPEUTF8.cpp over code points.

`merges` is the merge list of the tokenizer file in order; `bpe_ranks_` maps a pair to the position of its
first occurrence (`insert` keeps the first; `cnt++` runs on, which does not change the order of ranks).
`_get_pairs` returns a hash set: its iteration order is a parameter `ord`, any function that lists the
elements of the set.
-/
namespace Verif.Token
variable {χ : Type} [DecidableEq χ]
set_option linter.unusedSectionVars false

abbrev Piece (χ : Type) := List χ

/-- Adjacent pairs, `_get_pairs` BPE.cpp L151-160 (before they go through the hash set). -/
def adjPairs : List (Piece χ) → List (Piece χ × Piece χ)
  | a :: b :: r => (a, b) :: adjPairs (b :: r)
  | _ => []

/-- Rank of a pair: `bpe_ranks_`, BPE.cpp L56-69. -/
def rank (merges : List (Piece χ × Piece χ)) (p : Piece χ × Piece χ) : Option Nat :=
  if p ∈ merges then some (merges.idxOf p) else none

/-- The loop over the pairs, BPE.cpp L85-98: best pair so far with its rank (`none` = `has_bigram` false,
rank `int64_max`). -/
def bestStep (merges : List (Piece χ × Piece χ)) (acc : Option (Nat × (Piece χ × Piece χ)))
    (p : Piece χ × Piece χ) : Option (Nat × (Piece χ × Piece χ)) :=
  match rank merges p with
  | none => acc
  | some r =>
    match acc with
    | none => some (r, p)
    | some (r', q) => if r < r' then some (r, p) else some (r', q)

/-- The inner scan, BPE.cpp L106-127, on the part of `word` from index `i` on. -/
def scan (first second : Piece χ) (fuel : Nat) (w : List (Piece χ)) : List (Piece χ) :=
  match fuel with
  | 0 => []
  | fuel + 1 =>
    match w with
    | [] => []
    | _ =>
      let skipped := w.takeWhile (· ≠ first)
      match w.dropWhile (· ≠ first) with
      | [] => skipped
      | a :: b :: r =>
        if b = second then skipped ++ (first ++ second) :: scan first second fuel r
        else skipped ++ a :: scan first second fuel (b :: r)
      | [a] => skipped ++ [a]

/-- The outer loop, BPE.cpp L82-136; `none` = out of fuel (the loop does not stop). -/
def bpeLoop (merges : List (Piece χ × Piece χ)) (ord : List (Piece χ × Piece χ) → List (Piece χ × Piece χ)) :
    Nat → List (Piece χ) → Option (List (Piece χ))
  | 0, _ => none
  | fuel + 1, word =>
    match (ord (adjPairs word)).foldl (bestStep merges) none with
    | none => some word
    | some (_, (first, second)) =>
      let word' := scan first second (word.length + 1) word
      if word'.length = 1 then some word' else bpeLoop merges ord fuel word'

/-- `BPE::_bpe(token)`, BPE.cpp L75-138. -/
def bpe (merges : List (Piece χ × Piece χ)) (ord : List (Piece χ × Piece χ) → List (Piece χ × Piece χ))
    (fuel : Nat) (token : List χ) : Option (List (Piece χ)) :=
  let word := token.map fun c => [c]
  if adjPairs word = [] then some [token] else bpeLoop merges ord fuel word

/-! ### Specification: repeatedly apply the first merge of the list that occurs -/

/-- Replace all non-overlapping occurrences of the adjacent pair, from left to right. -/
def applyMerge (first second : Piece χ) : List (Piece χ) → List (Piece χ)
  | a :: b :: r =>
    if a = first ∧ b = second then (a ++ b) :: applyMerge first second r
    else a :: applyMerge first second (b :: r)
  | l => l
termination_by l => l.length

/-- The first merge in the list whose two parts stand next to each other in `word`. -/
def nextMerge (merges : List (Piece χ × Piece χ)) (word : List (Piece χ)) : Option (Piece χ × Piece χ) :=
  merges.find? fun m => m ∈ adjPairs word

/-- `word` can be turned into `word'` by such steps and no merge applies to `word'`. -/
inductive Reduces (merges : List (Piece χ × Piece χ)) : List (Piece χ) → List (Piece χ) → Prop
  | done {w} : nextMerge merges w = none → Reduces merges w w
  | step {w w' m} : nextMerge merges w = some m → Reduces merges (applyMerge m.1 m.2 w) w' →
      Reduces merges w w'

/-- A legal iteration order: lists exactly the members of the set. -/
def IsOrder (ord : List (Piece χ × Piece χ) → List (Piece χ × Piece χ)) : Prop :=
  ∀ l x, x ∈ ord l ↔ x ∈ l

/-! ### Proofs -/

theorem foldl_best (merges : List (Piece χ × Piece χ)) : ∀ (ps : List (Piece χ × Piece χ))
    (acc : Option (Nat × (Piece χ × Piece χ))), (∀ r q, acc = some (r, q) → rank merges q = some r) →
    match ps.foldl (bestStep merges) acc with
    | none => acc = none ∧ ∀ p ∈ ps, rank merges p = none
    | some (r, q) => rank merges q = some r ∧ (acc = some (r, q) ∨ q ∈ ps) ∧
        (∀ r' q', acc = some (r', q') → r ≤ r') ∧ ∀ p ∈ ps, ∀ r', rank merges p = some r' → r ≤ r'
  | [], acc, h => by
    cases acc with
    | none => simp
    | some x =>
      obtain ⟨r, q⟩ := x
      refine ⟨h r q rfl, Or.inl rfl, ?_, by simp⟩
      intro r' q' e; simp only [Option.some.injEq, Prod.mk.injEq] at e; omega
  | p :: ps, acc, h => by
    have hacc' : ∀ r q, bestStep merges acc p = some (r, q) → rank merges q = some r := by
      intro r q e
      unfold bestStep at e
      cases hr : rank merges p with
      | none => rw [hr] at e; exact h r q e
      | some r0 =>
        rw [hr] at e
        cases acc with
        | none => simp only [Option.some.injEq, Prod.mk.injEq] at e; rw [← e.1, ← e.2]; exact hr
        | some x =>
          obtain ⟨r1, q1⟩ := x
          simp only at e
          split_ifs at e
          · simp only [Option.some.injEq, Prod.mk.injEq] at e; rw [← e.1, ← e.2]; exact hr
          · exact h r q e
    have ih := foldl_best merges ps (bestStep merges acc p) hacc'
    rw [List.foldl_cons]
    cases hf : ps.foldl (bestStep merges) (bestStep merges acc p) with
    | none =>
      rw [hf] at ih
      obtain ⟨e1, e2⟩ := ih
      unfold bestStep at e1
      cases hr : rank merges p with
      | none =>
        rw [hr] at e1
        refine ⟨e1, ?_⟩
        intro p' hp'
        rcases List.mem_cons.mp hp' with rfl | hp'
        · exact hr
        · exact e2 p' hp'
      | some r0 =>
        rw [hr] at e1
        cases acc with
        | none => simp at e1
        | some x => simp only at e1; split_ifs at e1
    | some x =>
      obtain ⟨r, q⟩ := x
      rw [hf] at ih
      obtain ⟨e1, e2, e3, e4⟩ := ih
      have hb : ∀ r', (rank merges p = some r' → r ≤ r') ∧ (∀ q', acc = some (r', q') → r ≤ r') := by
        intro r'
        cases hr : rank merges p with
        | none =>
          have : bestStep merges acc p = acc := by simp [bestStep, hr]
          rw [this] at e3
          exact ⟨by simp, fun q' e => e3 r' q' e⟩
        | some r0 =>
          cases acc with
          | none =>
            have : bestStep merges none p = some (r0, p) := by simp [bestStep, hr]
            refine ⟨fun e => ?_, by simp⟩
            simp only [Option.some.injEq] at e
            have := e3 r0 p this
            omega
          | some x =>
            obtain ⟨r1, q1⟩ := x
            by_cases hlt : r0 < r1
            · have := e3 r0 p (by simp [bestStep, hr, hlt])
              refine ⟨fun e => ?_, fun q' e => ?_⟩
              · simp only [Option.some.injEq] at e; omega
              · simp only [Option.some.injEq, Prod.mk.injEq] at e; omega
            · have := e3 r1 q1 (by simp [bestStep, hr, hlt])
              refine ⟨fun e => ?_, fun q' e => ?_⟩
              · simp only [Option.some.injEq] at e; omega
              · simp only [Option.some.injEq, Prod.mk.injEq] at e; omega
      refine ⟨e1, ?_, fun r' q' e => (hb r').2 q' e, ?_⟩
      · rcases e2 with e2 | e2
        · unfold bestStep at e2
          cases hr : rank merges p with
          | none => rw [hr] at e2; exact Or.inl e2
          | some r0 =>
            rw [hr] at e2
            cases acc with
            | none =>
              simp only [Option.some.injEq, Prod.mk.injEq] at e2
              right; simp [e2.2]
            | some x =>
              obtain ⟨r1, q1⟩ := x
              simp only at e2
              split_ifs at e2
              · simp only [Option.some.injEq, Prod.mk.injEq] at e2
                right; simp [e2.2]
              · exact Or.inl e2
        · right; simp [e2]
      · intro p' hp' r' hr'
        rcases List.mem_cons.mp hp' with rfl | hp'
        · exact (hb r').1 hr'
        · exact e4 p' hp' r' hr'

/-- The loop over the hash set finds the first applicable merge of the list, whatever the order. -/
theorem best_eq_next (merges : List (Piece χ × Piece χ)) {ord} (ho : IsOrder (χ := χ) ord)
    (word : List (Piece χ)) :
    ((ord (adjPairs word)).foldl (bestStep merges) none).map (·.2) = nextMerge merges word := by
  have h := foldl_best merges (ord (adjPairs word)) none (by simp)
  cases hf : (ord (adjPairs word)).foldl (bestStep merges) none with
  | none =>
    rw [hf] at h
    symm
    simp only [Option.map_none]
    unfold nextMerge
    rw [List.find?_eq_none]
    intro m hm
    have : ¬ m ∈ adjPairs word := by
      intro hp
      have := h.2 m ((ho _ _).mpr hp)
      unfold rank at this
      rw [if_pos hm] at this
      cases this
    simpa using this
  | some x =>
    obtain ⟨r, q⟩ := x
    rw [hf] at h
    obtain ⟨e1, e2, -, e4⟩ := h
    have hq : q ∈ adjPairs word := by
      rcases e2 with e2 | e2
      · cases e2
      · exact (ho _ _).mp e2
    have hqm : q ∈ merges ∧ merges.idxOf q = r := by
      unfold rank at e1
      split_ifs at e1 with hm
      exact ⟨hm, by simpa using e1⟩
    simp only [Option.map_some]
    symm
    unfold nextMerge
    -- first element satisfying the predicate
    have key : ∀ (ms : List (Piece χ × Piece χ)), q ∈ ms →
        (∀ p ∈ adjPairs word, p ∈ ms → ms.idxOf q ≤ ms.idxOf p) →
        ms.find? (fun m => m ∈ adjPairs word) = some q := by
      intro ms
      induction ms with
      | nil => intro h; simp at h
      | cons m ms ih =>
        intro hm hmin
        by_cases hmq : m = q
        · subst hmq; simp [hq]
        · have hm' : q ∈ ms := by
            rcases List.mem_cons.mp hm with h | h
            · exact absurd h.symm hmq
            · exact h
          have hnot : ¬ m ∈ adjPairs word := by
            intro hp
            have := hmin m hp (by simp)
            rw [List.idxOf_cons_ne _ hmq, List.idxOf_cons_self] at this
            omega
          rw [List.find?_cons_of_neg (by simpa using hnot)]
          apply ih hm'
          intro p hp hpm
          have := hmin p hp (by simp [hpm])
          have hne : m ≠ p := fun e => hnot (e ▸ hp)
          rw [List.idxOf_cons_ne _ hmq, List.idxOf_cons_ne _ hne] at this
          omega
    apply key merges hqm.1
    intro p hp hpm
    have := e4 p ((ho _ _).mpr hp) (merges.idxOf p) (by simp [rank, hpm])
    omega

theorem applyMerge_cons_ne (f s a : Piece χ) (r : List (Piece χ)) (h : a ≠ f) :
    applyMerge f s (a :: r) = a :: applyMerge f s r := by
  cases r with
  | nil => simp [applyMerge]
  | cons b r => rw [applyMerge, if_neg (by tauto)]

theorem applyMerge_skip (f s : Piece χ) : ∀ (w : List (Piece χ)),
    applyMerge f s w = w.takeWhile (· ≠ f) ++ applyMerge f s (w.dropWhile (· ≠ f))
  | [] => by simp [applyMerge]
  | a :: r => by
    by_cases h : a = f
    · simp [h]
    · rw [applyMerge_cons_ne f s a r h, applyMerge_skip f s r]
      simp [h]

/-- The scan is the specification's replacement. -/
theorem scan_eq (f s : Piece χ) : ∀ (fuel : Nat) (w : List (Piece χ)), w.length < fuel →
    scan f s fuel w = applyMerge f s w
  | 0, w, h => by omega
  | fuel + 1, [], _ => by simp [scan, applyMerge]
  | fuel + 1, a :: r, h => by
    rw [applyMerge_skip]
    unfold scan
    simp only
    have hlen : ((a :: r).dropWhile (· ≠ f)).length ≤ (a :: r).length := (List.dropWhile_sublist _).length_le
    rcases hd : (a :: r).dropWhile (· ≠ f) with _ | ⟨x, _ | ⟨y, t⟩⟩
    · simp [applyMerge]
    · simp [applyMerge]
    · have hx : x = f := by
        have := List.head_dropWhile_not (fun z => decide (z ≠ f)) (l := a :: r) (by
          rw [hd]; simp)
        simp only [hd, List.head_cons] at this
        simpa using this
      rw [hd] at hlen
      simp only [List.length_cons] at hlen h
      simp only
      by_cases hy : y = s
      · rw [if_pos hy, applyMerge, if_pos ⟨hx, hy⟩, scan_eq f s fuel t (by omega), hx, hy]
      · rw [if_neg hy, applyMerge, if_neg (by tauto), scan_eq f s fuel (y :: t) (by simp; omega)]

/-- A step shortens the word. -/
theorem applyMerge_length (f s : Piece χ) : ∀ (w : List (Piece χ)),
    (applyMerge f s w).length ≤ w.length ∧ ((f, s) ∈ adjPairs w → (applyMerge f s w).length < w.length)
  | [] => by simp [applyMerge, adjPairs]
  | [a] => by simp [applyMerge, adjPairs]
  | a :: b :: r => by
    rw [applyMerge]
    by_cases h : a = f ∧ b = s
    · rw [if_pos h]
      have := (applyMerge_length f s r).1
      simp only [List.length_cons]
      omega
    · rw [if_neg h]
      have := applyMerge_length f s (b :: r)
      simp only [List.length_cons] at this ⊢
      refine ⟨by omega, ?_⟩
      intro hm
      simp only [adjPairs, List.mem_cons, Prod.mk.injEq] at hm
      rcases hm with hm | hm
      · exact absurd ⟨hm.1.symm, hm.2.symm⟩ h
      · have := this.2 hm; omega
termination_by w => w.length

theorem applyMerge_flatten (f s : Piece χ) : ∀ (w : List (Piece χ)), (applyMerge f s w).flatten = w.flatten
  | [] => by simp [applyMerge]
  | [a] => by simp [applyMerge]
  | a :: b :: r => by
    rw [applyMerge]
    split_ifs
    · simp [applyMerge_flatten f s r]
    · simp only [List.flatten_cons, applyMerge_flatten f s (b :: r)]
termination_by w => w.length

theorem applyMerge_nonempty (f s : Piece χ) : ∀ (w : List (Piece χ)), w ≠ [] → applyMerge f s w ≠ []
  | [], h => absurd rfl h
  | [a], _ => by simp [applyMerge]
  | a :: b :: r, _ => by rw [applyMerge]; split_ifs <;> simp

theorem nextMerge_mem {merges : List (Piece χ × Piece χ)} {w : List (Piece χ)} {m}
    (h : nextMerge merges w = some m) : m ∈ merges ∧ m ∈ adjPairs w := by
  refine ⟨List.mem_of_find?_eq_some h, ?_⟩
  have := List.find?_some h
  simpa using this

theorem nextMerge_single (merges : List (Piece χ × Piece χ)) {w : List (Piece χ)} (h : w.length = 1) :
    nextMerge merges w = none := by
  match w, h with
  | [a], _ => simp [nextMerge, adjPairs]

theorem bpeLoop_spec (merges : List (Piece χ × Piece χ)) {ord} (ho : IsOrder (χ := χ) ord) :
    ∀ (fuel : Nat) (w : List (Piece χ)), w.length < fuel →
      ∃ w', bpeLoop merges ord fuel w = some w' ∧ Reduces merges w w'
  | 0, w, h => by omega
  | fuel + 1, w, h => by
    have hb := best_eq_next merges ho w
    unfold bpeLoop
    cases hf : (ord (adjPairs w)).foldl (bestStep merges) none with
    | none =>
      rw [hf] at hb
      exact ⟨w, rfl, .done hb.symm⟩
    | some x =>
      obtain ⟨r, f, s⟩ := x
      rw [hf] at hb
      simp only [Option.map_some] at hb
      have hm := nextMerge_mem hb.symm
      simp only
      rw [scan_eq f s _ w (Nat.lt_succ_self _)]
      split_ifs with h1
      · exact ⟨_, rfl, .step hb.symm (.done (nextMerge_single _ h1))⟩
      · obtain ⟨w', e, hr⟩ := bpeLoop_spec merges ho fuel (applyMerge f s w) (by
          have := (applyMerge_length f s w).2 hm.2; omega)
        exact ⟨w', e, .step hb.symm hr⟩

theorem reduces_unique {merges : List (Piece χ × Piece χ)} {w a b : List (Piece χ)}
    (ha : Reduces merges w a) (hb : Reduces merges w b) : a = b := by
  induction ha with
  | done h =>
    cases hb with
    | done _ => rfl
    | step h' _ => rw [h] at h'; cases h'
  | step h _ ih =>
    cases hb with
    | done h' => rw [h] at h'; cases h'
    | step h' hr => rw [h] at h'; cases h'; exact ih hr

theorem reduces_flatten {merges : List (Piece χ × Piece χ)} {w a : List (Piece χ)}
    (h : Reduces merges w a) : a.flatten = w.flatten := by
  induction h with
  | done _ => rfl
  | step _ _ ih => rw [ih, applyMerge_flatten]

theorem reduces_normal {merges : List (Piece χ × Piece χ)} {w a : List (Piece χ)}
    (h : Reduces merges w a) : nextMerge merges a = none := by
  induction h with
  | done h => exact h
  | step _ _ ih => exact ih

theorem adjPairs_singletons (t : List χ) : adjPairs (t.map fun c => [c]) = [] ↔ t.length ≤ 1 := by
  match t with
  | [] => simp [adjPairs]
  | [a] => simp [adjPairs]
  | a :: b :: r => simp [adjPairs]

theorem flatten_singletons (t : List χ) : (t.map fun c => [c]).flatten = t := by
  induction t with
  | nil => rfl
  | cons a t ih => simp [ih]

/-! ### C23 -/

/-- C23. `_bpe` terminates (within as many merge rounds as the token has characters), for every token
and merge list, and its result is: start from the single characters and repeatedly apply the first
merge of the list that occurs, until none does. The result is the same for every iteration order of
the hash set of pairs. -/
theorem bpe_spec (merges : List (Piece χ × Piece χ)) {ord} (ho : IsOrder (χ := χ) ord) (token : List χ)
    (h : token ≠ []) (fuel : Nat) (hf : token.length < fuel) :
    ∃ ps, bpe merges ord fuel token = some ps ∧ Reduces merges (token.map fun c => [c]) ps := by
  unfold bpe
  simp only
  split_ifs with h1
  · rw [adjPairs_singletons] at h1
    match token, h, h1 with
    | [a], _, _ => exact ⟨_, rfl, .done (nextMerge_single _ rfl)⟩
    | a :: b :: r, _, h1 => simp at h1
  · exact bpeLoop_spec merges ho fuel _ (by simpa using hf)

/-- C23. Independence of the hash set's iteration order. -/
theorem bpe_order_irrelevant (merges : List (Piece χ × Piece χ)) {ord ord'} (ho : IsOrder (χ := χ) ord)
    (ho' : IsOrder (χ := χ) ord') (token : List χ) (fuel fuel' : Nat) (hf : token.length < fuel)
    (hf' : token.length < fuel') : bpe merges ord fuel token = bpe merges ord' fuel' token := by
  cases token with
  | nil => rfl
  | cons a t =>
    obtain ⟨p, e, r⟩ := bpe_spec merges ho (a :: t) (by simp) fuel hf
    obtain ⟨p', e', r'⟩ := bpe_spec merges ho' (a :: t) (by simp) fuel' hf'
    rw [e, e', reduces_unique r r']

/-- C23. The pieces spell the token, also for the empty token. -/
theorem bpe_concat (merges : List (Piece χ × Piece χ)) {ord} (ho : IsOrder (χ := χ) ord) (token : List χ)
    (fuel : Nat) (hf : token.length < fuel) :
    ∃ ps, bpe merges ord fuel token = some ps ∧ ps.flatten = token := by
  cases token with
  | nil => exact ⟨[[]], rfl, rfl⟩
  | cons a t =>
    obtain ⟨p, e, r⟩ := bpe_spec merges ho (a :: t) (by simp) fuel hf
    exact ⟨p, e, by rw [reduces_flatten r, flatten_singletons]⟩

/-- C23. No listed merge applies to two adjacent pieces of the result. -/
theorem bpe_no_merge_left (merges : List (Piece χ × Piece χ)) {ord} (ho : IsOrder (χ := χ) ord)
    (token : List χ) (fuel : Nat) (hf : token.length < fuel) (ps : List (Piece χ))
    (h : bpe merges ord fuel token = some ps) (m : Piece χ × Piece χ) (hm : m ∈ merges) :
    ∀ a b, ps ≠ a ++ m.1 :: m.2 :: b := by
  intro a b e
  have hadj : ∀ (a : List (Piece χ)), m ∈ adjPairs (a ++ m.1 :: m.2 :: b) := by
    intro a
    induction a with
    | nil => simp [adjPairs]
    | cons x a ih =>
      cases a with
      | nil => simp only [List.nil_append, List.cons_append, adjPairs, List.mem_cons] at ih ⊢; right; exact ih
      | cons y a => simp only [List.cons_append, adjPairs, List.mem_cons] at ih ⊢; right; exact ih
  have hnone : nextMerge merges ps = none := by
    cases token with
    | nil =>
      have : bpe merges ord fuel ([] : List χ) = some [[]] := rfl
      rw [this] at h; cases h
      exact nextMerge_single _ rfl
    | cons c t =>
      obtain ⟨p, e', r⟩ := bpe_spec merges ho (c :: t) (by simp) fuel hf
      rw [h] at e'; cases e'
      exact reduces_normal r
  unfold nextMerge at hnone
  rw [List.find?_eq_none] at hnone
  have := hnone m hm
  rw [e] at this
  exact this (by simpa using hadj a)

theorem adjPairs_infix : ∀ (w : List (Piece χ)) (m), m ∈ adjPairs w → m.1 ++ m.2 <:+: w.flatten
  | [], m, h => by simp [adjPairs] at h
  | [a], m, h => by simp [adjPairs] at h
  | a :: b :: r, m, h => by
    simp only [adjPairs, List.mem_cons] at h
    rcases h with rfl | h
    · exact ⟨[], r.flatten, by simp⟩
    · have := adjPairs_infix (b :: r) m h
      exact this.trans ⟨a, [], by simp⟩

/-- C23. Merges whose text does not occur in the token play no role: dropping any of them from the
list (or adding such) leaves the result unchanged. -/
theorem bpe_irrelevant_merges (merges : List (Piece χ × Piece χ)) {ord} (ho : IsOrder (χ := χ) ord)
    (token : List χ) (fuel : Nat) (hf : token.length < fuel) (keep : Piece χ × Piece χ → Bool)
    (hk : ∀ m ∈ merges, m.1 ++ m.2 <:+: token → keep m = true) :
    bpe (merges.filter keep) ord fuel token = bpe merges ord fuel token := by
  have hnext : ∀ w : List (Piece χ), w.flatten = token →
      nextMerge (merges.filter keep) w = nextMerge merges w := by
    intro w hw
    unfold nextMerge
    have : ∀ ms : List (Piece χ × Piece χ), (∀ m ∈ ms, m.1 ++ m.2 <:+: token → keep m = true) →
        (ms.filter keep).find? (fun m => m ∈ adjPairs w) = ms.find? (fun m => m ∈ adjPairs w) := by
      intro ms
      induction ms with
      | nil => intro _; rfl
      | cons m ms ih =>
        intro h
        have ih' := ih (fun m hm => h m (by simp [hm]))
        by_cases hin : m ∈ adjPairs w
        · have hkm := h m (by simp) (hw ▸ adjPairs_infix w m hin)
          rw [List.filter_cons_of_pos hkm, List.find?_cons_of_pos (by simpa using hin),
            List.find?_cons_of_pos (by simpa using hin)]
        · rw [List.find?_cons_of_neg (by simpa using hin), ← ih']
          cases hkm : keep m with
          | true => rw [List.filter_cons_of_pos hkm, List.find?_cons_of_neg (by simpa using hin)]
          | false => rw [List.filter_cons_of_neg (by simp [hkm])]
    exact this merges hk
  have hred : ∀ {w a : List (Piece χ)}, Reduces merges w a → w.flatten = token →
      Reduces (merges.filter keep) w a := by
    intro w a h
    induction h with
    | done h => intro hw; exact .done (by rw [hnext _ hw, h])
    | step h _ ih =>
      intro hw
      exact .step (by rw [hnext _ hw, h]) (ih (by rw [applyMerge_flatten, hw]))
  cases token with
  | nil => rfl
  | cons c t =>
    obtain ⟨p, e, r⟩ := bpe_spec merges ho (c :: t) (by simp) fuel hf
    obtain ⟨p', e', r'⟩ := bpe_spec (merges.filter keep) ho (c :: t) (by simp) fuel hf
    rw [e, e', reduces_unique r' (hred r (flatten_singletons _))]

/-- A non-trivial run: merges l+o, lo+w, e+r on "lower" with the identity order. -/
example : IsOrder (χ := Char) id ∧
    bpe [(['l'], ['o']), (['e'], ['r']), (['l', 'o'], ['w'])] id 6 ['l', 'o', 'w', 'e', 'r'] =
      some [['l', 'o', 'w'], ['e', 'r']] := ⟨fun _ _ => Iff.rfl, by decide⟩

end Verif.Token
