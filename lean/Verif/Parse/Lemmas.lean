import Verif.Parse.Model
namespace Verif.Parse

/-- Specification: `T` is `a`, then the first occurrence of `pat`, then `b`. -/
def First (pat a b T : Text) : Prop := T = a ++ pat ++ b ∧ ∀ a' b', T = a' ++ pat ++ b' → a.length ≤ a'.length

theorem First.infix {pat a b T : Text} (h : First pat a b T) : pat <:+: T := ⟨a, b, h.1.symm⟩

theorem First.unique {pat a b a' b' T : Text} (h : First pat a b T) (h' : First pat a' b' T) : a = a' ∧ b = b' := by
  have hl : a.length = a'.length := le_antisymm (h.2 a' b' h'.1) (h'.2 a b h.1)
  have he := h.1.symm.trans h'.1
  rw [List.append_assoc, List.append_assoc] at he
  obtain ⟨e1, e2⟩ := List.append_inj he hl
  exact ⟨e1, List.append_cancel_left e2⟩

theorem find_none {pat : Text} : ∀ {s : Text}, find pat s = none → ¬ pat <:+: s := by
  intro s
  induction s with
  | nil =>
    intro h hi
    rw [List.infix_nil] at hi
    simp [find, hi] at h
  | cons c s ih =>
    intro h hi
    rw [find] at h
    by_cases hp : pat.isPrefixOf (c :: s)
    · rw [if_pos hp] at h; cases h
    · rw [if_neg hp] at h
      rcases List.infix_cons_iff.1 hi with h1 | h1
      · exact hp (List.isPrefixOf_iff_prefix.2 h1)
      · exact ih (by simpa using h) h1

theorem find_some {pat : Text} : ∀ {s : Text} {i : Nat}, find pat s = some i → First pat (s.take i) (s.drop (i + pat.length)) s := by
  intro s
  induction s with
  | nil =>
    intro i h
    rw [find] at h
    by_cases hp : pat = []
    · subst hp; exact ⟨by simp, by intro a' b' h'; simp⟩
    · rw [if_neg hp] at h; cases h
  | cons c s ih =>
    intro i h
    rw [find] at h
    by_cases hp : pat.isPrefixOf (c :: s)
    · rw [if_pos hp] at h
      cases h
      obtain ⟨t, ht⟩ := List.isPrefixOf_iff_prefix.1 hp
      refine ⟨?_, fun a' b' _ => Nat.zero_le _⟩
      rw [← ht]; simp
    · rw [if_neg hp] at h
      cases hf : find pat s with
      | none => rw [hf] at h; cases h
      | some j =>
        rw [hf] at h
        have hj : i = j + 1 := by simpa using h.symm
        subst hj
        obtain ⟨h1, h2⟩ := ih hf
        refine ⟨?_, ?_⟩
        · rw [List.take_succ_cons, show j + 1 + pat.length = (j + pat.length) + 1 by omega, List.drop_succ_cons, List.cons_append, List.cons_append, ← h1]
        · intro a' b' he
          cases a' with
          | nil => exact absurd (List.isPrefixOf_iff_prefix.2 ⟨b', by simpa using he.symm⟩) hp
          | cons x a' =>
            simp only [List.cons_append, List.cons.injEq] at he
            have := h2 a' b' he.2
            simpa using this

theorem find_le {pat : Text} : ∀ {s : Text} {i : Nat}, find pat s = some i → i ≤ s.length := by
  intro s
  induction s with
  | nil => intro i h; rw [find] at h; split at h <;> simp_all
  | cons c s ih =>
    intro i h
    rw [find] at h
    split at h
    · cases h; simp
    · cases hf : find pat s with
      | none => rw [hf] at h; cases h
      | some j =>
        rw [hf] at h
        have : i = j + 1 := by simpa using h.symm
        subst this
        simpa using ih hf

theorem find_of_first {pat a b T : Text} (h : First pat a b T) : find pat T = some a.length := by
  cases hf : find pat T with
  | none => exact absurd h.infix (find_none hf)
  | some i =>
    obtain ⟨e, -⟩ := h.unique (find_some hf)
    rw [e, List.length_take, Nat.min_eq_left (find_le hf)]

theorem find_eq_none {pat T : Text} (h : ¬ pat <:+: T) : find pat T = none := by
  cases hf : find pat T with
  | none => rfl
  | some i => exact absurd (find_some hf).infix h

/-- The text is extended: the first occurrence stays. -/
theorem First.extend {pat a b T : Text} (h : First pat a b T) (d : Text) : First pat a (b ++ d) (T ++ d) := by
  refine ⟨by rw [h.1]; simp, ?_⟩
  intro a' b' he
  by_contra hlt
  push Not at hlt
  have hlen : a'.length + pat.length ≤ T.length := by
    rw [h.1]; simp only [List.length_append]; omega
  have : a' ++ pat <+: T := by
    have h1 : a' ++ pat <+: T ++ d := ⟨b', he.symm⟩
    exact List.prefix_of_prefix_length_le h1 (List.prefix_append _ _) (by simpa using hlen)
  obtain ⟨t, ht⟩ := this
  have := h.2 a' t ht.symm
  omega

theorem First.prepend {pat a b T : Text} (h : First pat a b T) : ∀ a' b', T = a' ++ pat ++ b' → a.length ≤ a'.length := h.2

theorem partial_iff {text pat : Text} : partialTag text pat = true ↔ ∃ i, 1 ≤ i ∧ i < pat.length ∧ pat.take i <:+ text := by
  rw [partialTag, List.any_eq_true]
  constructor
  · rintro ⟨i, hi, hs⟩
    rw [List.mem_range'_1] at hi
    exact ⟨i, by omega, by omega, List.isSuffixOf_iff_suffix.1 hs⟩
  · rintro ⟨i, h1, h2, hs⟩
    exact ⟨i, by rw [List.mem_range'_1]; omega, List.isSuffixOf_iff_suffix.2 hs⟩

/-- `C` has been passed on, `buf` is held: no occurrence of `pat`, now or later, begins in `C`. -/
def Guard (pat C buf : Text) : Prop := ∀ X a b, C ++ buf ++ X = a ++ pat ++ b → C.length ≤ a.length

theorem guard_init (pat buf : Text) : Guard pat [] buf := fun _ _ _ _ => Nat.zero_le _

theorem Guard.extend {pat C buf : Text} (h : Guard pat C buf) (d : Text) : Guard pat C (buf ++ d) :=
  fun X a b he => h (d ++ X) a b (by rw [← he]; simp)

theorem Guard.first {pat C buf x y : Text} (h : Guard pat C buf) (hf : First pat x y buf) : First pat (C ++ x) y (C ++ buf) := by
  refine ⟨by rw [hf.1]; simp, ?_⟩
  intro a' b' he
  have hl := h [] a' b' (by simpa using he)
  have h1 : C <+: a' := by
    have e1 : C <+: a' ++ pat ++ b' := ⟨buf, he⟩
    have e2 : a' <+: a' ++ pat ++ b' := ⟨pat ++ b', by simp⟩
    exact List.prefix_of_prefix_length_le e1 e2 hl
  obtain ⟨t, rfl⟩ := h1
  have : buf = t ++ pat ++ b' := by
    have : C ++ buf = C ++ (t ++ pat ++ b') := by rw [he]; simp
    exact List.append_cancel_left this
  have := hf.2 t b' this
  simp only [List.length_append]
  omega

theorem Guard.none {pat C buf : Text} (h : Guard pat C buf) (hn : ¬ pat <:+: buf) : ¬ pat <:+: C ++ buf := by
  rintro ⟨a', b', he⟩
  have hl := h [] a' b' (by simpa using he.symm)
  have h1 : C <+: a' := by
    have e1 : C <+: a' ++ pat ++ b' := ⟨buf, he.symm⟩
    have e2 : a' <+: a' ++ pat ++ b' := ⟨pat ++ b', by simp⟩
    exact List.prefix_of_prefix_length_le e1 e2 hl
  obtain ⟨t, rfl⟩ := h1
  refine hn ⟨t, b', ?_⟩
  have : C ++ (t ++ pat ++ b') = C ++ buf := by rw [← he]; simp
  exact List.append_cancel_left this

/-- What `passOn` splits. -/
theorem passOn_append (pat buf : Text) : (passOn pat buf).1 ++ (passOn pat buf).2 = buf := by
  unfold passOn
  split <;> simp

theorem Guard.passOn {pat C buf : Text} (hp : pat ≠ []) (h : Guard pat C buf) (hn : ¬ pat <:+: buf) :
    Guard pat (C ++ (passOn pat buf).1) (passOn pat buf).2 := by
  intro X a b he
  rw [List.append_assoc C, passOn_append] at he
  have hl := h X a b he
  obtain ⟨t, ht⟩ : C <+: a := by
    have e1 : C <+: a ++ pat ++ b := ⟨buf ++ X, by rw [← he]; simp⟩
    have e2 : a <+: a ++ pat ++ b := ⟨pat ++ b, by simp⟩
    exact List.prefix_of_prefix_length_le e1 e2 hl
  subst ht
  have hb : buf ++ X = t ++ pat ++ b := by
    have : C ++ (buf ++ X) = C ++ (t ++ pat ++ b) := by rw [← List.append_assoc, he]; simp
    exact List.append_cancel_left this
  have hpl : 0 < pat.length := List.length_pos_of_ne_nil hp
  have hfit : buf.length < t.length + pat.length := by
    by_contra hle
    push Not at hle
    have : t ++ pat <+: buf := List.prefix_of_prefix_length_le ⟨b, hb.symm⟩ (List.prefix_append _ _) (by simpa using hle)
    obtain ⟨z, hz⟩ := this
    exact hn ⟨t, z, hz⟩
  simp only [List.length_append]
  rw [Nat.add_le_add_iff_left]
  unfold Parse.passOn
  by_cases hpt : partialTag buf pat = true
  · rw [if_pos hpt]
    simp only [List.length_take]
    omega
  · rw [if_neg hpt]
    simp only
    by_contra hlt
    push Not at hlt
    apply hpt
    rw [partial_iff]
    refine ⟨buf.length - t.length, by omega, by omega, ?_⟩
    obtain ⟨u, hu⟩ : t <+: buf := List.prefix_of_prefix_length_le ⟨pat ++ b, by rw [hb]; simp⟩ (List.prefix_append _ X) (by omega)
    have h3 : u ++ X = pat ++ b := by
      have : t ++ (u ++ X) = t ++ (pat ++ b) := by rw [← List.append_assoc, hu, hb]; simp
      exact List.append_cancel_left this
    have hul : buf.length = t.length + u.length := by rw [← hu]; simp
    have h4 : pat.take u.length = u := by
      have := congrArg (List.take u.length) h3
      rw [List.take_left, List.take_append_of_le_length (by omega)] at this
      exact this.symm
    rw [show buf.length - t.length = u.length by omega, h4]
    exact ⟨t, hu⟩

theorem passOn_short {pat buf : Text} (hp : pat ≠ []) : (passOn pat buf).2.length < pat.length := by
  have hpl : 0 < pat.length := List.length_pos_of_ne_nil hp
  unfold passOn
  split
  · simp only [List.length_drop]; omega
  · simpa using hpl

/-- Something is held exactly if the text so far ends like the beginning of the tag. -/
theorem passOn_held {pat C buf : Text} (h : Guard pat C buf) : (passOn pat buf).2 ≠ [] ↔ partialTag (C ++ buf) pat = true := by
  constructor
  · intro hne
    unfold passOn at hne
    by_cases hpt : partialTag buf pat = true
    · obtain ⟨i, h1, h2, h3⟩ := partial_iff.1 hpt
      exact partial_iff.2 ⟨i, h1, h2, h3.trans (List.suffix_append _ _)⟩
    · rw [if_neg hpt] at hne
      exact absurd rfl hne
  · intro hpt
    obtain ⟨i, h1, h2, t, ht⟩ := partial_iff.1 hpt
    have hlen := h (pat.drop i) t [] (by rw [← ht]; simp)
    have hs : pat.take i <:+ buf := by
      refine List.suffix_of_suffix_length_le ⟨t, ht⟩ (List.suffix_append C buf) ?_
      have := congrArg List.length ht
      simp only [List.length_append] at this
      omega
    have hb : partialTag buf pat = true := partial_iff.2 ⟨i, h1, h2, hs⟩
    unfold passOn
    rw [if_pos hb]
    have : 0 < buf.length := by
      have := hs.length_le
      rw [List.length_take] at this
      omega
    rw [← List.length_pos_iff]
    simp only [List.length_drop]
    omega

theorem passOn_sub {pat buf : Text} (hn : ¬ pat <:+: buf) : ¬ pat <:+: (passOn pat buf).2 := by
  intro h
  apply hn
  have : (passOn pat buf).2 <:+ buf := ⟨_, passOn_append pat buf⟩
  exact h.trans this.isInfix

end Verif.Parse
