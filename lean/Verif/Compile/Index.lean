import Verif.Compile.Model
/- Program ids and jump offsets (C33). -/
namespace Verif.Compile

/-- Number of program ops. -/
def plen (l : List Op) : Nat := l.countP Op.isProgram

theorem plen_append (a b : List Op) : plen (a ++ b) = plen a + plen b := List.countP_append
theorem plen_cons (o : Op) (l : List Op) : plen (o :: l) = plen l + (if o.isProgram then 1 else 0) := by
  unfold plen; rw [List.countP_cons]
theorem plen_nil : plen [] = 0 := rfl

theorem withIds_append (a b : List Op) (k : Nat) : withIds (a ++ b) k = withIds a k ++ withIds b (k + plen a) := by
  induction a generalizing k with
  | nil => simp [withIds, plen]
  | cons o a ih =>
    simp only [List.cons_append, withIds, plen_cons]
    by_cases h : o.isProgram = true
    · simp only [h, if_true, List.cons_append, ih]
      congr 3; omega
    · simp only [h, ih]
      congr 2

theorem withIds_length (a : List Op) (k : Nat) : (withIds a k).length = plen a := by
  induction a generalizing k with
  | nil => rfl
  | cons o a ih =>
    rw [withIds, plen_cons]
    by_cases h : o.isProgram = true
    · simp [h, ih]
    · simp [h, ih]

theorem withIds_ge (a : List Op) (k : Nat) : ∀ p ∈ withIds a k, k ≤ p.1 ∧ p.1 < k + plen a := by
  induction a generalizing k with
  | nil => simp [withIds]
  | cons o a ih =>
    intro p hp
    rw [withIds] at hp
    rw [plen_cons]
    by_cases h : o.isProgram = true
    · simp only [h, if_true] at hp ⊢
      rcases List.mem_cons.1 hp with rfl | hp
      · simp
      · have := ih _ p hp; omega
    · simp only [h] at hp ⊢
      have := ih _ p hp
      simpa using this

/-- Ids are consecutive: the program op behind `plen pre` others gets id `plen pre`. -/
theorem withIds_get {pre post : List Op} {o : Op} (h : o.isProgram = true) (k : Nat) :
    withIds (pre ++ o :: post) k = withIds pre k ++ (k + plen pre, o) :: withIds post (k + plen pre + 1) := by
  rw [withIds_append, withIds, if_pos h]

theorem mem_withIds {l : List Op} {k : Nat} {o : Op} (i : Nat) (h : (i, o) ∈ withIds l k) :
    ∃ pre post, l = pre ++ o :: post ∧ i = k + plen pre ∧ o.isProgram = true := by
  induction l generalizing k with
  | nil => simp [withIds] at h
  | cons a l ih =>
    rw [withIds] at h
    by_cases ha : a.isProgram = true
    · rw [if_pos ha] at h
      rcases List.mem_cons.1 h with h | h
      · cases h; exact ⟨[], l, rfl, by simp [plen], ha⟩
      · obtain ⟨pre, post, h1, h2, h3⟩ := ih h
        exact ⟨a :: pre, post, by rw [h1]; rfl, by rw [plen_cons, if_pos ha]; omega, h3⟩
    · rw [if_neg ha] at h
      obtain ⟨pre, post, h1, h2, h3⟩ := ih h
      exact ⟨a :: pre, post, by rw [h1]; rfl, by rw [plen_cons, if_neg ha]; omega, h3⟩

theorem labelIds_mem {l : List (Nat × Op)} {m : List (Name × Nat)} (h : labelIds l = some m) :
    ∀ n k, (n, k) ∈ m ↔ (k, Op.label n) ∈ l := by
  induction l generalizing m with
  | nil => simp [labelIds] at h; subst h; simp
  | cons p l ih =>
    obtain ⟨i, o⟩ := p
    intro n k
    cases o with
    | label a =>
      rw [labelIds] at h
      cases hl : labelIds l with
      | none => rw [hl] at h; simp at h
      | some m' =>
        rw [hl] at h
        simp only at h
        split_ifs at h with hmem
        cases h
        simp only [List.mem_cons, Prod.mk.injEq, Op.label.injEq, ih hl n k]
        constructor
        · rintro (⟨rfl, rfl⟩ | h); exacts [.inl ⟨rfl, rfl⟩, .inr h]
        · rintro (⟨rfl, rfl⟩ | h); exacts [.inl ⟨rfl, rfl⟩, .inr h]
    | _ =>
      rw [labelIds] at h
      · rw [ih h n k]; simp
      · simp

theorem labelIds_nodup {l : List (Nat × Op)} {m : List (Name × Nat)} (h : labelIds l = some m) :
    (m.map Prod.fst).Nodup := by
  induction l generalizing m with
  | nil => simp [labelIds] at h; subst h; simp
  | cons p l ih =>
    obtain ⟨i, o⟩ := p
    cases o with
    | label a =>
      rw [labelIds] at h
      cases hl : labelIds l with
      | none => rw [hl] at h; simp at h
      | some m' =>
        rw [hl] at h
        simp only at h
        split_ifs at h with hmem
        cases h
        simp only [List.map_cons, List.nodup_cons]
        exact ⟨hmem, ih hl⟩
    | _ =>
      rw [labelIds] at h
      · exact ih h
      · simp

theorem lookup_of_mem {m : List (Name × Nat)} (h : (m.map Prod.fst).Nodup) {n : Name} {k : Nat} (hm : (n, k) ∈ m) :
    m.lookup n = some k := by
  induction m with
  | nil => simp at hm
  | cons p m ih =>
    obtain ⟨a, b⟩ := p
    simp only [List.map_cons, List.nodup_cons] at h
    rcases List.mem_cons.1 hm with hm' | hm'
    · cases hm'; simp
    · have : n ≠ a := by
        rintro rfl
        exact h.1 (List.mem_map_of_mem (f := Prod.fst) hm')
      rw [List.lookup_cons]
      have hb : (n == a) = false := by simpa using this
      rw [hb]
      exact ih h.2 hm'

/-- The label map after indexing: every label is mapped to its id. -/
theorem label_lookup {code : List Op} {m : List (Name × Nat)} (h : labelIds (withIds code 0) = some m)
    {pre post : List Op} {l : Name} (hc : code = pre ++ .label l :: post) : m.lookup l = some (plen pre) := by
  refine lookup_of_mem (labelIds_nodup h) ?_
  rw [labelIds_mem h, hc, withIds_get rfl]
  simp

theorem mapM_spec {α β : Type} {f : α → Option β} : ∀ {l : List α} {l' : List β}, l.mapM f = some l' →
    ∀ pre a post, l = pre ++ a :: post → ∃ pre' b post', l' = pre' ++ b :: post' ∧ f a = some b ∧
      pre.mapM f = some pre' ∧ post.mapM f = some post'
  | l, l', h, pre, a, post, hl => by
    subst hl
    rw [List.mapM_append] at h
    cases hp : List.mapM f pre with
    | none => rw [hp] at h; simp at h
    | some pre' =>
      rw [hp] at h
      rw [List.mapM_cons] at h
      cases ha : f a with
      | none => rw [ha] at h; simp at h
      | some b =>
        rw [ha] at h
        cases hq : List.mapM f post with
        | none => rw [hq] at h; simp at h
        | some post' =>
          rw [hq] at h
          simp at h
          exact ⟨pre', b, post', h.symm, rfl, rfl, rfl⟩

theorem mapM_length {α β : Type} {f : α → Option β} : ∀ {l : List α} {l' : List β}, l.mapM f = some l' →
    l'.length = l.length
  | [], l', h => by simp at h; subst h; rfl
  | a :: l, l', h => by
    rw [List.mapM_cons] at h
    cases ha : f a with
    | none => rw [ha] at h; simp at h
    | some b =>
      rw [ha] at h
      cases hl : List.mapM f l with
      | none => rw [hl] at h; simp at h
      | some l'' =>
        rw [hl] at h
        simp at h
        subst h
        simp [mapM_length hl]

theorem mapM_mem {α β : Type} {f : α → Option β} : ∀ {l : List α} {l' : List β}, l.mapM f = some l' →
    ∀ b ∈ l', ∃ a ∈ l, f a = some b
  | [], l', h => by simp at h; subst h; simp
  | a :: l, l', h => by
    rw [List.mapM_cons] at h
    cases ha : f a with
    | none => rw [ha] at h; simp at h
    | some b =>
      rw [ha] at h
      cases hl : List.mapM f l with
      | none => rw [hl] at h; simp at h
      | some l'' =>
        rw [hl] at h
        simp at h
        subst h
        intro c hc
        rcases List.mem_cons.1 hc with rfl | hc
        · exact ⟨a, by simp, ha⟩
        · obtain ⟨x, hx, hf⟩ := mapM_mem hl c hc
          exact ⟨x, by simp [hx], hf⟩

theorem mapM_isSome {α β : Type} {f : α → Option β} : ∀ {l : List α}, (∀ a ∈ l, (f a).isSome) →
    ∃ l', l.mapM f = some l'
  | [], _ => ⟨[], by simp⟩
  | a :: l, h => by
    obtain ⟨b, hb⟩ := Option.isSome_iff_exists.1 (h a (by simp))
    obtain ⟨l', hl⟩ := mapM_isSome (l := l) fun x hx => h x (by simp [hx])
    exact ⟨b :: l', by rw [List.mapM_cons, hb, hl]; rfl⟩

theorem fetch_append (a b : List (Nat × Instr)) (k : Nat) (h : ∀ e ∈ b, e.1 ≠ k) : fetch (a ++ b) k = fetch a k := by
  unfold fetch
  rw [List.foldl_append]
  generalize List.foldl _ Instr.exit a = x
  induction b generalizing x with
  | nil => rfl
  | cons e b ih =>
    rw [List.foldl_cons, if_neg (h e (by simp))]
    exact ih (fun e he => h e (by simp [he])) x

/-- The indexed program at the id of an op is that op's instruction. -/
theorem fetch_index {code : List Op} {p : List (Nat × Instr)} (h : index code = some p)
    {pre post : List Op} {o : Op} (hc : code = pre ++ o :: post) (ho : o.isProgram = true) :
    ∃ m, labelIds (withIds code 0) = some m ∧ some (fetch p (plen pre)) = instr m (plen pre) o ∧
      p.length = plen code := by
  rw [index] at h
  cases hm : labelIds (withIds code 0) with
  | none => rw [hm] at h; simp at h
  | some m =>
    rw [hm] at h
    simp only at h
    refine ⟨m, rfl, ?_, ?_⟩
    · obtain ⟨pre', b, post', h1, h2, h3, h4⟩ := mapM_spec h _ _ _ (by rw [hc, withIds_get ho])
      simp only [Nat.zero_add] at h2
      cases hi : instr m (plen pre) o with
      | none => rw [hi] at h2; simp at h2
      | some i =>
        rw [hi] at h2
        simp at h2
        subst h2
        have hpost : ∀ e ∈ post', e.1 ≠ plen pre := by
          intro e he
          obtain ⟨x, hx, hf⟩ := mapM_mem h4 e he
          cases hy : instr m x.1 x.2 with
          | none => rw [hy] at hf; simp at hf
          | some y =>
            rw [hy] at hf
            simp at hf
            have := (withIds_ge _ _ x hx).1
            rw [← hf]
            simp only
            omega
        rw [h1]
        have : pre' ++ (plen pre, i) :: post' = (pre' ++ [(plen pre, i)]) ++ post' := by simp
        rw [this, fetch_append _ _ _ hpost]
        simp [fetch]
    · rw [mapM_length h, withIds_length]

/-- 32-bit offsets reach their target in programs of fewer than 2^31 instructions. -/
theorem pcAdd_offset {t k : Nat} (ht : t < 2 ^ 31) (hk : k < 2 ^ 31) : pcAdd k (offset t k) = t := by
  unfold pcAdd offset
  rw [Int.bmod_eq_of_le] <;> omega

end Verif.Compile
