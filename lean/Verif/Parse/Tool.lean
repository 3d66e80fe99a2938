import Verif.Parse.Lemmas
namespace Verif.Parse

/-- Specification: `T` begins with complete calls with the bodies `bs`; the text before and between them is `C`, what follows is `rest`. -/
inductive Pre (bot stop : Text) (T : Text) : Text → List Text → Text → Prop where
  | start : Pre bot stop T [] [] T
  | call {C : Text} {bs : List Text} {rest a b r k : Text} : Pre bot stop T C bs rest → First bot a b rest → First stop r k b →
      Pre bot stop T (C ++ a) (bs ++ [r]) k

/-- Specification: a text as content `C`, complete calls `bs`, and a call `o` that has begun, if there is one. -/
def Parts (bot stop : Text) (T C : Text) (bs : List Text) (o : Option Text) : Prop :=
  ∃ C0 rest, Pre bot stop T C0 bs rest ∧ (stop = [] → bs = []) ∧
    ((o = none ∧ ¬ bot <:+: rest ∧ C = C0 ++ rest) ∨
     ∃ a b, First bot a b rest ∧ (stop = [] ∨ ¬ stop <:+: b) ∧ o = some b ∧ C = C0 ++ a)

theorem Pre.extend {bot stop T C : Text} {bs : List Text} {rest : Text} (h : Pre bot stop T C bs rest) (d : Text) : Pre bot stop (T ++ d) C bs (rest ++ d) := by
  induction h with
  | start => exact .start
  | call _ h1 h2 ih => exact .call ih (h1.extend d) (h2.extend d)

theorem Pre.snoc_inv {bot stop T C : Text} {bs : List Text} {rest : Text} (h : Pre bot stop T C bs rest) :
    (C = [] ∧ bs = [] ∧ rest = T) ∨ ∃ C' bs' rest' a b r, Pre bot stop T C' bs' rest' ∧ First bot a b rest' ∧ First stop r rest b ∧ C = C' ++ a ∧ bs = bs' ++ [r] := by
  cases h with
  | start => exact Or.inl ⟨rfl, rfl, rfl⟩
  | call h1 h2 h3 => exact Or.inr ⟨_, _, _, _, _, _, h1, h2, h3, rfl, rfl⟩

/-- The decomposition with a given number of calls is unique. -/
theorem Pre.unique {bot stop T C : Text} {bs : List Text} {rest : Text} (h : Pre bot stop T C bs rest) : ∀ {C' : Text} {bs' : List Text} {rest' : Text},
    Pre bot stop T C' bs' rest' → bs'.length = bs.length → C' = C ∧ bs' = bs ∧ rest' = rest := by
  induction h with
  | start =>
    intro C' bs' rest' h' hl
    rcases h'.snoc_inv with h0 | ⟨_, _, _, _, _, _, _, _, _, _, h0⟩
    · exact h0
    · rw [h0] at hl; simp at hl
  | call h1 h2 h3 ih =>
    intro C' bs' rest' h' hl
    rcases h'.snoc_inv with ⟨_, h0, _⟩ | ⟨C'', bs'', rest'', a', b', r', g1, g2, g3, rfl, rfl⟩
    · rw [h0] at hl; simp at hl
    · obtain ⟨rfl, rfl, rfl⟩ := ih g1 (by simpa using hl)
      obtain ⟨rfl, rfl⟩ := g2.unique h2
      obtain ⟨rfl, rfl⟩ := g3.unique h3
      exact ⟨rfl, rfl, rfl⟩

/-- No more calls than that: a longer decomposition continues a shorter one. -/
theorem Pre.le {bot stop T C : Text} {bs : List Text} {rest : Text} (h : Pre bot stop T C bs rest) : ∀ n, n < bs.length →
    ∃ C' bs' rest' a b r k, bs'.length = n ∧ Pre bot stop T C' bs' rest' ∧ First bot a b rest' ∧ First stop r k b := by
  induction h with
  | start => intro n hn; simp at hn
  | @call C bs rest a b r k h1 h2 h3 ih =>
    intro n hn
    rcases Nat.lt_or_ge n bs.length with hl | hl
    · exact ih n hl
    · simp only [List.length_append, List.length_singleton] at hn
      exact ⟨C, bs, rest, a, b, r, k, by omega, h1, h2, h3⟩

/-- The decomposition is unique. -/
theorem Parts.unique {bot stop T C C' : Text} {bs bs' : List Text} {o o' : Option Text} (h : Parts bot stop T C bs o) (h' : Parts bot stop T C' bs' o') :
    C = C' ∧ bs = bs' ∧ o = o' := by
  have key : ∀ {C C' : Text} {bs bs' : List Text} {o o' : Option Text}, Parts bot stop T C bs o → Parts bot stop T C' bs' o' → ¬ bs.length < bs'.length := by
    rintro C C' bs bs' o o' ⟨C0, rest, g1, g2, g3⟩ ⟨C0', rest', g1', g2', g3'⟩ hlt
    obtain ⟨C1, bs1, rest1, a, b, r, k, hl, q1, q2, q3⟩ := g1'.le _ hlt
    obtain ⟨rfl, rfl, rfl⟩ := g1.unique q1 hl
    have hs : stop ≠ [] := by
      intro hs
      rw [g2' hs] at hlt
      simp at hlt
    rcases g3 with ⟨-, hn, -⟩ | ⟨a', b', hab, hn, -, -⟩
    · exact hn q2.infix
    · obtain ⟨rfl, rfl⟩ := hab.unique q2
      rcases hn with hn | hn
      · exact hs hn
      · exact hn q3.infix
  have hl : bs'.length = bs.length := le_antisymm (not_lt.1 (key h h')) (not_lt.1 (key h' h))
  obtain ⟨C0, rest, g1, g2, g3⟩ := h
  obtain ⟨C0', rest', g1', g2', g3'⟩ := h'
  obtain ⟨rfl, rfl, rfl⟩ := g1.unique g1' hl
  rcases g3 with ⟨rfl, hn, rfl⟩ | ⟨a, b, hab, _, rfl, rfl⟩ <;> rcases g3' with ⟨rfl, hn', rfl⟩ | ⟨a', b', hab', _, rfl, rfl⟩
  · exact ⟨rfl, rfl, rfl⟩
  · exact absurd hab'.infix hn
  · exact absurd hab.infix hn'
  · obtain ⟨rfl, rfl⟩ := hab.unique hab'
    exact ⟨rfl, rfl, rfl⟩

/-! ### The one-shot parser -/

/-- Calls as a list of items, numbered from `i`. -/
def number (i : Nat) : List (Option Text × Text) → List Item
  | [] => []
  | (n, a) :: cs => ⟨n, a, i⟩ :: number (i + 1) cs

theorem first_length {pat a b T : Text} (h : First pat a b T) : T.length = a.length + pat.length + b.length := by
  rw [h.1]; simp only [List.length_append]

theorem drop_first {pat a b T : Text} (h : First pat a b T) : T.drop (a.length + pat.length) = b ∧ T.take a.length = a := by
  constructor
  · rw [h.1, ← List.length_append, List.drop_left]
  · rw [h.1, List.append_assoc, List.take_left]

/-- The decomposition from the left. -/
theorem Parts.cases {bot stop T C : Text} {bs : List Text} {o : Option Text} (h : Parts bot stop T C bs o) :
    (¬ bot <:+: T ∧ C = T ∧ bs = [] ∧ o = none) ∨
    (∃ b, First bot C b T ∧ (stop = [] ∨ ¬ stop <:+: b) ∧ bs = [] ∧ o = some b) ∨
    (∃ a b r k C' bs', stop ≠ [] ∧ First bot a b T ∧ First stop r k b ∧ Parts bot stop k C' bs' o ∧ C = a ++ C' ∧ bs = r :: bs') := by
  obtain ⟨C0, rest, h1, h2, h3⟩ := h
  have key : ∀ {C : Text} {bs : List Text} {rest : Text}, Pre bot stop T C bs rest → (C = [] ∧ bs = [] ∧ rest = T) ∨
      ∃ a b r k C' bs', First bot a b T ∧ First stop r k b ∧ Pre bot stop k C' bs' rest ∧ C = a ++ C' ∧ bs = r :: bs' := by
    intro C bs rest h
    induction h with
    | start => exact Or.inl ⟨rfl, rfl, rfl⟩
    | @call C bs rest a b r k g1 g2 g3 ih =>
      right
      rcases ih with ⟨rfl, rfl, rfl⟩ | ⟨a0, b0, r0, k0, C', bs', q1, q2, q3, rfl, rfl⟩
      · exact ⟨a, b, r, k, [], [], g2, g3, .start, by simp, by simp⟩
      · exact ⟨a0, b0, r0, k0, C' ++ a, bs' ++ [r], q1, q2, .call q3 g2 g3, by simp, by simp⟩
  rcases key h1 with ⟨rfl, rfl, rfl⟩ | ⟨a, b, r, k, C', bs', q1, q2, q3, rfl, rfl⟩
  · rcases h3 with ⟨rfl, hn, rfl⟩ | ⟨a, b, hab, hn, rfl, rfl⟩
    · exact Or.inl ⟨hn, by simp, rfl, rfl⟩
    · exact Or.inr (Or.inl ⟨b, by simpa using hab, hn, rfl, rfl⟩)
  · have hs : stop ≠ [] := fun hs => by cases h2 hs
    refine Or.inr (Or.inr ?_)
    rcases h3 with ⟨rfl, hn, rfl⟩ | ⟨a', b', hab, hn, rfl, rfl⟩
    · exact ⟨a, b, r, k, C' ++ rest, bs', hs, q1, q2, ⟨C', rest, q3, fun h => absurd h hs, Or.inl ⟨rfl, hn, rfl⟩⟩, by simp, rfl⟩
    · exact ⟨a, b, r, k, C' ++ a', bs', hs, q1, q2, ⟨C', rest, q3, fun h => absurd h hs, Or.inr ⟨a', b', hab, hn, rfl, rfl⟩⟩, by simp, rfl⟩

theorem Parts.exists (bot stop : Text) (hb : bot ≠ []) : ∀ (n : Nat) (T : Text), T.length ≤ n → ∃ C bs o, Parts bot stop T C bs o := by
  intro n
  induction n with
  | zero =>
    intro T hT
    have : T = [] := by simpa using hT
    subst this
    refine ⟨[], [], none, [], [], .start, fun _ => rfl, Or.inl ⟨rfl, ?_, rfl⟩⟩
    rw [List.infix_nil]; exact hb
  | succ n ih =>
    intro T hT
    cases hf : find bot T with
    | none => exact ⟨T, [], none, [], T, .start, fun _ => rfl, Or.inl ⟨rfl, find_none hf, rfl⟩⟩
    | some i =>
      have h1 := find_some hf
      by_cases hs : stop = []
      · exact ⟨_, [], some _, [], T, .start, fun _ => rfl, Or.inr ⟨_, _, h1, Or.inl hs, rfl, rfl⟩⟩
      · cases hg : find stop (T.drop (i + bot.length)) with
        | none => exact ⟨_, [], some _, [], T, .start, fun _ => rfl, Or.inr ⟨_, _, h1, Or.inr (find_none hg), rfl, rfl⟩⟩
        | some j =>
          have h2 := find_some hg
          have l1 := first_length h1
          have l2 := first_length h2
          have := List.length_pos_of_ne_nil hb
          obtain ⟨C, bs, o, C0, rest, p1, p2, p3⟩ := ih _ (show ((T.drop (i + bot.length)).drop (j + stop.length)).length ≤ n by omega)
          have key : ∀ {C : Text} {bs : List Text} {rest : Text}, Pre bot stop ((T.drop (i + bot.length)).drop (j + stop.length)) C bs rest →
              Pre bot stop T (T.take i ++ C) ((T.drop (i + bot.length)).take j :: bs) rest := by
            intro C bs rest h
            induction h with
            | start => simpa using Pre.call (C := []) (bs := []) .start h1 h2
            | call _ g1 g2 ih => have := Pre.call ih g1 g2; simpa using this
          rcases p3 with ⟨rfl, hn, rfl⟩ | ⟨a, b, hab, hn, rfl, rfl⟩
          · exact ⟨_, _, none, _, rest, key p1, fun h => absurd h hs, Or.inl ⟨rfl, hn, rfl⟩⟩
          · exact ⟨_, _, some b, _, rest, key p1, fun h => absurd h hs, Or.inr ⟨a, b, hab, hn, rfl, rfl⟩⟩

theorem scan_spec (c : TCfg) (hb : c.bot ≠ []) : ∀ (n : Nat) (T : Text) (i : Nat) (C : Text) (bs : List Text) (o : Option Text), T.length < n →
    Parts c.bot c.stop T C bs o → c.scan n i T = (C, number i ((bs ++ o.toList).filterMap fun b => c.parse (strip c.ws b))) := by
  intro n
  induction n with
  | zero => intro T i C bs o hT; omega
  | succ n ih =>
    intro T i C bs o hT h
    rw [TCfg.scan]
    rcases h.cases with ⟨hn, rfl, rfl, rfl⟩ | ⟨b, hf, hn, rfl, rfl⟩ | ⟨a, b, r, k, C', bs', hs, hf, hg, hp, rfl, rfl⟩
    · rw [find_eq_none hn]; rfl
    · rw [find_of_first hf]
      simp only
      rw [(drop_first hf).1, (drop_first hf).2]
      have e1 : (if c.stop = [] then none else find c.stop b) = none := by
        rcases hn with hn | hn
        · rw [if_pos hn]
        · split
          · rfl
          · exact find_eq_none hn
      have hnil : ∀ m j, c.scan m j [] = ([], []) := by
        intro m j
        cases m with
        | zero => rfl
        | succ m =>
          rw [TCfg.scan, find_eq_none (by rw [List.infix_nil]; exact hb)]
      rw [e1]
      simp only [hnil, List.append_nil, List.nil_append, Option.toList]
      cases hq : c.parse (strip c.ws b) with
      | none => simp [hq, number]
      | some q => simp [hq, number]
    · rw [find_of_first hf]
      simp only
      rw [(drop_first hf).1, (drop_first hf).2, if_neg hs, find_of_first hg]
      simp only
      rw [(drop_first hg).1, (drop_first hg).2]
      have l1 := first_length hf
      have l2 := first_length hg
      have := List.length_pos_of_ne_nil hb
      have hk : k.length < n := by omega
      cases hq : c.parse (strip c.ws r) with
      | none =>
        simp only
        rw [ih k i C' bs' o hk hp]
        simp [hq]
      | some q =>
        obtain ⟨nm, ar⟩ := q
        simp only
        rw [ih k (i + 1) C' bs' o hk hp]
        simp [hq, number]

end Verif.Parse
