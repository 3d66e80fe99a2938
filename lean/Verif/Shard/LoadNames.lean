import Verif.Shard.Load
/-! Python substring search and replacement on dotted names with a decimal layer number. -/
namespace Verif.Shard

theorem prefix_sep {pat a t : Name} {d : Char} (hd : d ∉ pat) :
    pat.isPrefixOf (a ++ d :: t) = pat.isPrefixOf a := by
  induction pat generalizing a with
  | nil => simp
  | cons p ps ih =>
    simp only [List.mem_cons, not_or] at hd
    cases a with
    | nil =>
      simp only [List.nil_append, List.isPrefixOf]
      have : (p == d) = false := by simpa using fun h => hd.1 h.symm
      rw [this]; rfl
    | cons x xs =>
      simp only [List.cons_append, List.isPrefixOf]
      rw [ih hd.2]

theorem contains_sep {pat : Name} {d : Char} (hd : d ∉ pat) (hp : pat ≠ []) (a t : Name) :
    contains pat (a ++ d :: t) = (contains pat a || contains pat t) := by
  have hpd : ∀ t, pat.isPrefixOf (d :: t) = false := by
    intro t
    have := prefix_sep (a := []) (t := t) hd
    simp only [List.nil_append] at this
    rw [this]
    cases pat with
    | nil => exact absurd rfl hp
    | cons _ _ => rfl
  induction a with
  | nil =>
    simp only [List.nil_append, contains, hpd, Bool.false_or]
    cases pat with
    | nil => exact absurd rfl hp
    | cons _ _ => rfl
  | cons x xs ih =>
    show contains pat (x :: (xs ++ d :: t)) = _
    simp only [contains]
    rw [ih]
    have : pat.isPrefixOf (x :: (xs ++ d :: t)) = pat.isPrefixOf (x :: xs) := prefix_sep (a := x :: xs) hd
    rw [this, Bool.or_assoc]

theorem contains_digits {pat : Name} (hp : pat ≠ []) (hnd : ∀ c ∈ pat, c.isDigit = false) (t : Name) :
    ∀ ds : Name, (∀ c ∈ ds, c.isDigit = true) → contains pat (ds ++ t) = contains pat t
  | [], _ => rfl
  | d :: ds, h => by
    have hd : d ∉ pat := fun hm => by
      have := hnd d hm
      rw [h d List.mem_cons_self] at this; cases this
    have := contains_sep hd hp [] (ds ++ t)
    simp only [List.nil_append] at this
    rw [List.cons_append, this, contains_digits hp hnd t ds (fun c hc => h c (List.mem_cons_of_mem _ hc))]
    cases pat with
    | nil => exact absurd rfl hp
    | cons _ _ => simp [contains]

/-- Searching a name around a run of digits. -/
theorem contains_mid {pat : Name} (hp : pat ≠ []) (hnd : ∀ c ∈ pat, c.isDigit = false) (a t ds : Name)
    (hne : ds ≠ []) (hds : ∀ c ∈ ds, c.isDigit = true) :
    contains pat (a ++ (ds ++ t)) = (contains pat a || contains pat t) := by
  cases ds with
  | nil => exact absurd rfl hne
  | cons d ds =>
    have hd : d ∉ pat := fun hm => by
      have := hnd d hm
      rw [hds d List.mem_cons_self] at this; cases this
    rw [List.cons_append, contains_sep hd hp, contains_digits hp hnd t ds (fun c hc => hds c (List.mem_cons_of_mem _ hc))]

theorem isPrefixOf_length {pat a : Name} (h : pat.isPrefixOf a = true) : pat.length ≤ a.length :=
  (List.isPrefixOf_iff_prefix.1 h).length_le

theorem repl_zero (pat new : Name) (c : Char) (cs : Name) : repl pat new 0 (c :: cs) =
    if pat.isPrefixOf (c :: cs) then new ++ repl pat new (pat.length - 1) cs else c :: repl pat new 0 cs := by
  rw [repl]

theorem repl_succ (pat new : Name) (k : Nat) (c : Char) (cs : Name) :
    repl pat new (k + 1) (c :: cs) = repl pat new k cs := by
  rw [repl]

theorem repl_nil (pat new : Name) (k : Nat) : repl pat new k [] = [] := by
  cases k <;> rw [repl]

theorem split_dot : ∀ {a b x y : Name}, '.' ∉ a → '.' ∉ b → a ++ '.' :: x = b ++ '.' :: y → a = b ∧ x = y
  | [], [], _, _, _, _, h => ⟨rfl, (List.cons.inj h).2⟩
  | [], c :: b, _, _, _, hb, h => by
    have := (List.cons.inj h).1
    exact absurd (this ▸ List.mem_cons_self) hb
  | c :: a, [], _, _, ha, _, h => by
    have := (List.cons.inj h).1
    exact absurd (this ▸ List.mem_cons_self) ha
  | c :: a, e :: b, x, y, ha, hb, h => by
    obtain ⟨h1, h2⟩ := List.cons.inj h
    obtain ⟨h3, h4⟩ := split_dot (fun hm => ha (List.mem_cons_of_mem _ hm)) (fun hm => hb (List.mem_cons_of_mem _ hm)) h2
    exact ⟨by rw [h1, h3], h4⟩

theorem repl_sep {pat new : Name} {d : Char} (hd : d ∉ pat) (hp : pat ≠ []) (t : Name) :
    ∀ (a : Name) (k : Nat), k ≤ a.length →
      repl pat new k (a ++ d :: t) = repl pat new k a ++ d :: repl pat new 0 t
  | [], 0, _ => by
    have := prefix_sep (a := []) (t := t) hd
    simp only [List.nil_append] at this ⊢
    have h0 : pat.isPrefixOf ([] : Name) = false := by
      cases pat with
      | nil => exact absurd rfl hp
      | cons _ _ => rfl
    rw [repl_zero, this, h0, repl_nil]
    rfl
  | [], k + 1, h => by simp at h
  | x :: xs, k + 1, h => by
    show repl pat new (k + 1) (x :: (xs ++ d :: t)) = _
    rw [repl_succ, repl_succ]
    exact repl_sep hd hp t xs k (by simpa using h)
  | x :: xs, 0, _ => by
    show repl pat new 0 (x :: (xs ++ d :: t)) = _
    have hpre : pat.isPrefixOf (x :: (xs ++ d :: t)) = pat.isPrefixOf (x :: xs) := prefix_sep (a := x :: xs) hd
    rw [repl_zero, repl_zero, hpre]
    by_cases hm : pat.isPrefixOf (x :: xs) = true
    · rw [if_pos hm, if_pos hm]
      have hl := isPrefixOf_length hm
      rw [repl_sep hd hp t xs (pat.length - 1) (by simp at hl; omega), List.append_assoc]
    · rw [if_neg hm, if_neg hm, repl_sep hd hp t xs 0 (Nat.zero_le _)]
      rfl

theorem repl_digits {pat new : Name} (hp : pat ≠ []) (hnd : ∀ c ∈ pat, c.isDigit = false) (t : Name) :
    ∀ ds : Name, (∀ c ∈ ds, c.isDigit = true) → repl pat new 0 (ds ++ t) = ds ++ repl pat new 0 t
  | [], _ => rfl
  | d :: ds, h => by
    have hd : d ∉ pat := fun hm => by
      have := hnd d hm
      rw [h d List.mem_cons_self] at this; cases this
    have := repl_sep (new := new) hd hp (ds ++ t) [] 0 (Nat.zero_le _)
    simp only [List.nil_append] at this
    rw [List.cons_append, this, repl_digits hp hnd t ds (fun c hc => h c (List.mem_cons_of_mem _ hc))]
    rfl

/-- Replacing in a name around a run of digits. -/
theorem repl_mid {pat new : Name} (hp : pat ≠ []) (hnd : ∀ c ∈ pat, c.isDigit = false) (a t ds : Name)
    (hne : ds ≠ []) (hds : ∀ c ∈ ds, c.isDigit = true) :
    repl pat new 0 (a ++ (ds ++ t)) = repl pat new 0 a ++ (ds ++ repl pat new 0 t) := by
  cases ds with
  | nil => exact absurd rfl hne
  | cons d ds =>
    have hd : d ∉ pat := fun hm => by
      have := hnd d hm
      rw [hds d List.mem_cons_self] at this; cases this
    rw [List.cons_append, repl_sep hd hp _ a 0 (Nat.zero_le _),
      repl_digits hp hnd t ds (fun c hc => hds c (List.mem_cons_of_mem _ hc))]
    rfl

theorem digits_ne (i : Nat) : Nat.toDigits 10 i ≠ [] := Nat.toDigits_ne_nil
theorem digits_digit (i : Nat) : ∀ c ∈ Nat.toDigits 10 i, c.isDigit = true :=
  fun _ hc => Nat.isDigit_of_mem_toDigits (by decide) (by decide) hc
theorem digits_inj {i j : Nat} (h : Nat.toDigits 10 i = Nat.toDigits 10 j) : i = j := by
  have := congrArg (fun l => Nat.ofDigitChars 10 l 0) h
  simpa [Nat.ofDigitChars_ten_toDigits] using this
theorem dot_not_digits (i : Nat) : '.' ∉ Nat.toDigits 10 i := fun h => by
  have := digits_digit i _ h
  revert this; decide

theorem path_inj : ∀ {a b : LW}, a.path = b.path → a = b := by
  intro a b
  cases a <;> cases b <;> decide +revert

/-- Different parameters have different names. -/
theorem name_inj : ∀ {a b : PKey}, a.name = b.name → a = b := by
  have key : ∀ (s t u : Name), (s ++ t).take 13 = ("model.layers.".toList ++ u).take 13 → s.length = 13 → s = "model.layers.".toList := by
    intro s t u h hs
    rw [List.take_append_of_le_length (by omega), List.take_of_length_le (by omega),
      List.take_append_of_le_length (by decide), List.take_of_length_le (by decide)] at h
    exact h
  have hlay : ∀ (s : Name) (i : Nat) (w : LW), s.take 13 ≠ "model.layers.".toList → s ≠ (PKey.layer i w).name := by
    intro s i w hne he
    apply hne
    rw [he]
    unfold PKey.name
    rw [List.take_append_of_le_length (by decide), List.take_of_length_le (by decide)]
  have h1 : (PKey.embed.name).take 13 ≠ "model.layers.".toList := by decide
  have h2 : (PKey.norm.name).take 13 ≠ "model.layers.".toList := by decide
  have h3 : (PKey.head.name).take 13 ≠ "model.layers.".toList := by decide
  intro a b h
  cases a with
  | embed => cases b with
    | embed => rfl
    | norm => exact absurd h (by decide)
    | head => exact absurd h (by decide)
    | layer i w => exact absurd h (hlay _ i w h1)
  | norm => cases b with
    | embed => exact absurd h (by decide)
    | norm => rfl
    | head => exact absurd h (by decide)
    | layer i w => exact absurd h (hlay _ i w h2)
  | head => cases b with
    | embed => exact absurd h (by decide)
    | norm => exact absurd h (by decide)
    | head => rfl
    | layer i w => exact absurd h (hlay _ i w h3)
  | layer i w => cases b with
    | embed => exact absurd h.symm (hlay _ i w h1)
    | norm => exact absurd h.symm (hlay _ i w h2)
    | head => exact absurd h.symm (hlay _ i w h3)
    | layer j v =>
      unfold PKey.name at h
      have h' := List.append_cancel_left h
      obtain ⟨e1, e2⟩ := split_dot (dot_not_digits i) (dot_not_digits j) h'
      rw [digits_inj e1, path_inj e2]

end Verif.Shard
