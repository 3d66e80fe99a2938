import Verif.Graph.Lemmas
/- The sizes of the captured batches (C107). -/
namespace Verif.Graph

theorem mem_pyRange {a b c x : Nat} (hc : 0 < c) : x ∈ pyRange a b c ↔ ∃ i, x = a + i * c ∧ x < b := by
  unfold pyRange
  rw [List.mem_map]
  constructor
  · rintro ⟨i, hi, rfl⟩
    refine ⟨i, rfl, ?_⟩
    rw [List.mem_range, Nat.lt_div_iff_mul_lt hc] at hi
    have : c * i = i * c := Nat.mul_comm ..
    omega
  · rintro ⟨i, rfl, h⟩
    refine ⟨i, ?_, rfl⟩
    rw [List.mem_range, Nat.lt_div_iff_mul_lt hc]
    have : c * i = i * c := Nat.mul_comm ..
    omega

/-- All sizes up to `maxBs`, before the case of an empty list. -/
def sizeIn (maxBs p : Nat) : Prop := p ≤ maxBs ∧ (p ∈ [1, 2, 4, 8, 12] ∨ (∃ i, p = 16 + i * 8 ∧ p < 257) ∨ (∃ i, p = 272 + i * 16 ∧ p < 512) ∨ ∃ i, p = 512 + i * 32)

theorem mem_capture {maxBs p : Nat} : p ∈ captureSizes maxBs ↔ sizeIn maxBs p ∨ (maxBs = 0 ∧ p = 1) := by
  have hmem : ∀ q, q ∈ ((([1, 2, 4, 8, 12] ++ pyRange 16 257 8 ++ pyRange 272 512 16 ++ pyRange 512 (maxBs + 1) 32).filter (· ≤ maxBs)).dedup.insertionSort (· ≤ ·)) ↔ sizeIn maxBs q := by
    intro q
    rw [List.mem_insertionSort, List.mem_dedup, List.mem_filter, List.mem_append, List.mem_append, List.mem_append,
      mem_pyRange (by decide), mem_pyRange (by decide), mem_pyRange (by decide), sizeIn]
    constructor
    · rintro ⟨((h | ⟨i, h⟩) | ⟨i, h⟩) | ⟨i, h⟩, h2⟩
      · exact ⟨by simpa using h2, .inl h⟩
      · exact ⟨by simpa using h2, .inr (.inl ⟨i, h⟩)⟩
      · exact ⟨by simpa using h2, .inr (.inr (.inl ⟨i, h⟩))⟩
      · exact ⟨by simpa using h2, .inr (.inr (.inr ⟨i, h.1⟩))⟩
    · rintro ⟨h2, h | ⟨i, h⟩ | ⟨i, h⟩ | ⟨i, h⟩⟩
      · exact ⟨.inl (.inl (.inl h)), by simpa using h2⟩
      · exact ⟨.inl (.inl (.inr ⟨i, h⟩)), by simpa using h2⟩
      · exact ⟨.inl (.inr ⟨i, h⟩), by simpa using h2⟩
      · exact ⟨.inr ⟨i, h, by omega⟩, by simpa using h2⟩
  unfold captureSizes
  extract_lets all l0
  split
  · rename_i he
    rw [List.isEmpty_iff] at he
    change ∀ q, q ∈ l0 ↔ _ at hmem
    rw [he] at hmem
    have hz : maxBs = 0 := by
      by_contra hc
      have : sizeIn maxBs 1 := ⟨by omega, .inl (by simp)⟩
      exact absurd ((hmem 1).2 this) (by simp)
    constructor
    · intro h
      exact .inr ⟨hz, by simpa using h⟩
    · rintro (h | h)
      · exact absurd ((hmem p).2 h) (by simp)
      · simp [h.2]
  · rename_i he
    change ∀ q, q ∈ l0 ↔ _ at hmem
    rw [hmem]
    constructor
    · exact .inl
    · rintro (h | ⟨h, _⟩)
      · exact h
      · exfalso
        apply he
        rw [List.isEmpty_iff, List.eq_nil_iff_forall_not_mem]
        intro q hq
        have hs := (hmem q).1 hq
        obtain ⟨h1, h2⟩ := hs
        rw [h] at h1
        have : q = 0 := by omega
        subst this
        rcases h2 with h2 | ⟨i, h2⟩ | ⟨i, h2⟩ | ⟨i, h2⟩
        · simp at h2
        · omega
        · omega
        · omega

theorem capture_sorted (maxBs : Nat) : (captureSizes maxBs).Pairwise (· < ·) := by
  unfold captureSizes
  extract_lets all l0
  split
  · simp
  · show List.Pairwise (· < ·) ((all.filter (· ≤ maxBs)).dedup.insertionSort (· ≤ ·))
    generalize hl : (all.filter (· ≤ maxBs)).dedup = l
    have hn : l.Nodup := hl ▸ List.nodup_dedup _
    have h1 : (l.insertionSort (· ≤ ·)).Pairwise (· ≤ ·) := List.pairwise_insertionSort _ _
    have h2 : (l.insertionSort (· ≤ ·)).Nodup := (List.perm_insertionSort _ _).nodup_iff.2 hn
    rw [List.Nodup] at h2
    exact (h1.and h2).imp fun ⟨a, b⟩ => by omega

theorem maxOf_ge {l : List Nat} {x : Nat} (h : x ∈ l) : x ≤ maxOf l := by
  have key : ∀ (l : List Nat) (a : Nat), a ≤ l.foldl max a ∧ ∀ x ∈ l, x ≤ l.foldl max a := by
    intro l
    induction l with
    | nil => intro a; simp
    | cons y l ih =>
      intro a
      obtain ⟨h1, h2⟩ := ih (max a y)
      refine ⟨by simp only [List.foldl_cons]; omega, ?_⟩
      intro x hx
      simp only [List.foldl_cons]
      rcases List.mem_cons.1 hx with rfl | hx
      · omega
      · exact h2 x hx
  exact (key l 0).2 x h

theorem maxOf_mem {l : List Nat} (h : l ≠ []) : maxOf l ∈ l := by
  have key : ∀ (l : List Nat) (a : Nat), l.foldl max a = a ∨ l.foldl max a ∈ l := by
    intro l
    induction l with
    | nil => intro a; simp
    | cons y l ih =>
      intro a
      simp only [List.foldl_cons]
      rcases ih (max a y) with h | h
      · rw [h]
        rcases le_total a y with h' | h'
        · right; simp [h']
        · left; omega
      · right; exact List.mem_cons_of_mem _ h
  rcases key l 0 with h' | h'
  · cases l with
    | nil => exact absurd rfl h
    | cons y l =>
      have h1 : y ≤ maxOf (y :: l) := maxOf_ge List.mem_cons_self
      have h2 : maxOf (y :: l) = 0 := h'
      have : y = 0 := by omega
      rw [h2, this]
      exact List.mem_cons_self
  · exact h'

/-- `bisect_left` finds the smallest captured size that is large enough. -/
theorem paddedSize_spec {l : List Nat} (hl : l.Pairwise (· < ·)) {n : Nat} (h : ∃ p ∈ l, n ≤ p) :
    ∃ p, paddedSize l n = some p ∧ p ∈ l ∧ n ≤ p ∧ ∀ q ∈ l, n ≤ q → p ≤ q := by
  unfold paddedSize bisectLeft
  induction l with
  | nil => obtain ⟨p, hp, _⟩ := h; cases hp
  | cons y l ih =>
    rw [List.pairwise_cons] at hl
    by_cases hy : y < n
    · rw [List.takeWhile_cons_of_pos (by simpa using hy)]
      obtain ⟨p, hp, hnp⟩ := h
      have hp' : p ∈ l := by
        rcases List.mem_cons.1 hp with rfl | h'
        · omega
        · exact h'
      obtain ⟨q, h1, h2, h3, h4⟩ := ih hl.2 ⟨p, hp', hnp⟩
      refine ⟨q, by simpa using h1, List.mem_cons_of_mem _ h2, h3, ?_⟩
      intro r hr hnr
      rcases List.mem_cons.1 hr with rfl | hr
      · omega
      · exact h4 r hr hnr
    · rw [List.takeWhile_cons_of_neg (by simpa using hy)]
      refine ⟨y, rfl, List.mem_cons_self, by omega, ?_⟩
      intro r hr _
      rcases List.mem_cons.1 hr with rfl | hr
      · exact le_refl _
      · exact le_of_lt (hl.1 r hr)

/-- Every size but the first has a smaller one not far below. -/
theorem size_pred {maxBs p : Nat} (h : sizeIn maxBs p) : p = 1 ∨ ∃ q, sizeIn maxBs q ∧ q < p ∧ p ≤ 2 * q ∧ p ≤ q + 32 ∧ (p ≤ 256 → p ≤ q + 8) := by
  obtain ⟨h1, h2 | ⟨i, h2, h3⟩ | ⟨i, h2, h3⟩ | ⟨i, h2⟩⟩ := h
  · simp only [List.mem_cons, List.not_mem_nil, or_false] at h2
    rcases h2 with rfl | rfl | rfl | rfl | rfl
    · exact .inl rfl
    · exact .inr ⟨1, ⟨by omega, .inl (by simp)⟩, by omega, by omega, by omega, by omega⟩
    · exact .inr ⟨2, ⟨by omega, .inl (by simp)⟩, by omega, by omega, by omega, by omega⟩
    · exact .inr ⟨4, ⟨by omega, .inl (by simp)⟩, by omega, by omega, by omega, by omega⟩
    · exact .inr ⟨8, ⟨by omega, .inl (by simp)⟩, by omega, by omega, by omega, by omega⟩
  · right
    cases i with
    | zero => exact ⟨12, ⟨by omega, .inl (by simp)⟩, by omega, by omega, by omega, by omega⟩
    | succ i => exact ⟨16 + i * 8, ⟨by omega, .inr (.inl ⟨i, rfl, by omega⟩)⟩, by omega, by omega, by omega, by omega⟩
  · right
    cases i with
    | zero => exact ⟨256, ⟨by omega, .inr (.inl ⟨30, by omega, by omega⟩)⟩, by omega, by omega, by omega, by omega⟩
    | succ i => exact ⟨272 + i * 16, ⟨by omega, .inr (.inr (.inl ⟨i, rfl, by omega⟩))⟩, by omega, by omega, by omega, by omega⟩
  · right
    cases i with
    | zero => exact ⟨496, ⟨by omega, .inr (.inr (.inl ⟨14, by omega, by omega⟩))⟩, by omega, by omega, by omega, by omega⟩
    | succ i => exact ⟨512 + i * 32, ⟨by omega, .inr (.inr (.inr ⟨i, rfl⟩))⟩, by omega, by omega, by omega, by omega⟩

theorem capture_ne (maxBs : Nat) : captureSizes maxBs ≠ [] := by
  intro h
  have : (1 : Nat) ∈ captureSizes maxBs := by
    rw [mem_capture]
    by_cases e : maxBs = 0
    · exact .inr ⟨e, rfl⟩
    · exact .inl ⟨by omega, .inl (by simp)⟩
  rw [h] at this
  cases this

theorem canRun_padded {maxBs n : Nat} (h : canRun (captureSizes maxBs) n = true) :
    ∃ p, paddedSize (captureSizes maxBs) n = some p ∧ p ∈ captureSizes maxBs ∧ n ≤ p ∧ ∀ q ∈ captureSizes maxBs, n ≤ q → p ≤ q :=
  paddedSize_spec (capture_sorted maxBs) ⟨maxOf (captureSizes maxBs), maxOf_mem (capture_ne maxBs), by simpa [canRun] using h⟩

end Verif.Graph
