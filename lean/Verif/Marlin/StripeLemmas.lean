import Verif.Marlin.Stripe

namespace Verif.Marlin

/-- Specification: the stripe of a block, as an interval of tile numbers. -/
def Grid.Owns (G : Grid) (b t : Nat) : Prop := G.iters * b ≤ t ∧ t < G.iters * (b + 1)

/-- A launch that makes sense: at least one tile, one block. -/
structure Grid.Ok (G : Grid) : Prop where
  kt : 0 < G.kt
  nt : 0 < G.nt
  par : 0 < G.par
  blocks : 0 < G.blocks
  g : 0 < G.g

theorem divCeil_spec {a b : Nat} (hb : 0 < b) : a ≤ b * divCeil a b ∧ b * divCeil a b < a + b := by
  unfold divCeil
  have h1 := Nat.div_add_mod (a + b - 1) b
  have h2 := Nat.mod_lt (a + b - 1) hb
  omega

theorem divCeil_pos {a b : Nat} (ha : 0 < a) (hb : 0 < b) : 0 < divCeil a b := by
  have := (divCeil_spec (a := a) hb).1
  rcases Nat.eq_zero_or_pos (divCeil a b) with h | h
  · rw [h] at this; omega
  · exact h

theorem divCeil_unique {a b c : Nat} (hb : 0 < b) (h1 : a ≤ b * c) (h2 : b * c < a + b) :
    divCeil a b = c := by
  have h := divCeil_spec (a := a) hb
  rcases Nat.lt_trichotomy (divCeil a b) c with h' | h' | h'
  · have : b * (divCeil a b + 1) ≤ b * c := Nat.mul_le_mul_left b h'
    rw [Nat.mul_add] at this; omega
  · exact h'
  · have : b * (c + 1) ≤ b * divCeil a b := Nat.mul_le_mul_left b h'
    rw [Nat.mul_add] at this; omega

theorem Grid.iters_pos (G : Grid) (h : G.Ok) : 0 < G.iters := by
  unfold Grid.iters
  have h1 : 0 < G.kt * G.nt * G.par := Nat.mul_pos (Nat.mul_pos h.kt h.nt) h.par
  exact Nat.mul_pos h.g (divCeil_pos (divCeil_pos h1 h.blocks) h.g)

/-- The stripes of the grid reach the end of the tiles. -/
theorem Grid.iters_enough (G : Grid) (h : G.Ok) : G.kt * G.cols ≤ G.iters * G.blocks := by
  have h1 := (divCeil_spec (a := G.kt * G.nt * G.par) h.blocks).1
  have h2 := (divCeil_spec (a := divCeil (G.kt * G.nt * G.par) G.blocks) h.g).1
  have h3 : G.kt * G.cols = G.kt * G.nt * G.par := by unfold Grid.cols; rw [Nat.mul_assoc]
  rw [h3]
  refine h1.trans ?_
  rw [Nat.mul_comm]
  exact Nat.mul_le_mul_right _ h2

/-- First and last block of a column. -/
def Grid.firstB (G : Grid) (col : Nat) : Nat := G.kt * col / G.iters
def Grid.lastB (G : Grid) (col : Nat) : Nat := (G.kt * (col + 1) - 1) / G.iters

theorem Grid.first_spec (G : Grid) (h : G.Ok) (col : Nat) :
    G.iters * G.firstB col ≤ G.kt * col ∧ G.kt * col < G.iters * (G.firstB col + 1) := by
  unfold Grid.firstB
  have := Nat.div_add_mod (G.kt * col) G.iters
  have h2 := Nat.mod_lt (G.kt * col) (G.iters_pos h)
  rw [Nat.mul_add]; omega

theorem Grid.last_spec (G : Grid) (h : G.Ok) (col : Nat) :
    G.iters * G.lastB col < G.kt * (col + 1) ∧ G.kt * (col + 1) ≤ G.iters * (G.lastB col + 1) := by
  unfold Grid.lastB
  have := Nat.div_add_mod (G.kt * (col + 1) - 1) G.iters
  have h2 := Nat.mod_lt (G.kt * (col + 1) - 1) (G.iters_pos h)
  have h3 : 0 < G.kt * (col + 1) := Nat.mul_pos h.kt (by omega)
  rw [Nat.mul_add G.iters]; omega

theorem mul_le_iff {d a b : Nat} (hd : 0 < d) : d * a ≤ d * b ↔ a ≤ b :=
  Nat.mul_le_mul_left_iff hd

theorem Grid.first_le_last (G : Grid) (h : G.Ok) (col : Nat) : G.firstB col ≤ G.lastB col := by
  have h1 := G.first_spec h col
  have h2 := G.last_spec h col
  by_contra hc
  have : G.iters * (G.lastB col + 1) ≤ G.iters * G.firstB col := Nat.mul_le_mul_left _ (by omega)
  have h3 : G.kt * (col + 1) = G.kt * col + G.kt := by ring
  have := h.kt
  omega

/-- A block has tiles of the column exactly when it lies between the first and the last. -/
theorem Grid.meets_iff (G : Grid) (h : G.Ok) (b col : Nat) :
    (∃ r, r < G.kt ∧ G.Owns b (G.kt * col + r)) ↔ G.firstB col ≤ b ∧ b ≤ G.lastB col := by
  have h1 := G.first_spec h col
  have h2 := G.last_spec h col
  have hd := G.iters_pos h
  have hm : G.kt * (col + 1) = G.kt * col + G.kt := by ring
  constructor
  · rintro ⟨r, hr, ho1, ho2⟩
    constructor
    · by_contra hc
      have : G.iters * (b + 1) ≤ G.iters * G.firstB col := Nat.mul_le_mul_left _ (by omega)
      omega
    · by_contra hc
      have : G.iters * (G.lastB col + 1) ≤ G.iters * b := Nat.mul_le_mul_left _ (by omega)
      omega
  · rintro ⟨hf, hl⟩
    have e1 : G.iters * b ≤ G.iters * G.lastB col := Nat.mul_le_mul_left _ hl
    have e2 : G.iters * (G.firstB col + 1) ≤ G.iters * (b + 1) := Nat.mul_le_mul_left _ (by omega)
    have e3 : G.iters * (b + 1) = G.iters * b + G.iters := by ring
    have := h.kt
    by_cases hc : G.iters * b ≤ G.kt * col
    · exact ⟨0, h.kt, by unfold Grid.Owns; omega⟩
    · exact ⟨G.iters * b - G.kt * col, by omega, by unfold Grid.Owns; omega⟩

/-- `col_first` is the start of the first or of the second block of the column. -/
theorem Grid.ceil_cases (G : Grid) (h : G.Ok) (col : Nat) :
    (divCeil (G.kt * col) G.iters = G.firstB col ∧ G.iters * G.firstB col = G.kt * col) ∨
    (divCeil (G.kt * col) G.iters = G.firstB col + 1 ∧ G.iters * G.firstB col < G.kt * col) := by
  have h1 := G.first_spec h col
  have hd := G.iters_pos h
  have e : G.iters * (G.firstB col + 1) = G.iters * G.firstB col + G.iters := by ring
  rcases Nat.lt_or_ge (G.iters * G.firstB col) (G.kt * col) with hc | hc
  · right; exact ⟨divCeil_unique hd (by omega) (by omega), hc⟩
  · left; exact ⟨divCeil_unique hd (by omega) (by omega), by omega⟩

/-- `slice_count` is the number of blocks of the column. -/
theorem Grid.count_eq (G : Grid) (h : G.Ok) (col : Nat) :
    G.sliceCount col = (G.lastB col : Int) - G.firstB col + 1 := by
  have h1 := G.first_spec h col
  have h2 := G.last_spec h col
  have hd := G.iters_pos h
  have hm : G.kt * (col + 1) = G.kt * col + G.kt := by ring
  have hfl := G.first_le_last h col
  have el : G.iters * (G.lastB col + 1) = G.iters * G.lastB col + G.iters := by ring
  have ef : G.iters * (G.firstB col + 1) = G.iters * G.firstB col + G.iters := by ring
  unfold Grid.sliceCount
  dsimp only
  rcases G.ceil_cases h col with ⟨hc, he⟩ | ⟨hc, he⟩
  · rw [hc, if_pos (by omega), if_neg (by omega)]
    have : divCeil (G.kt - (G.iters * G.firstB col - G.kt * col)) G.iters
        = G.lastB col + 1 - G.firstB col := by
      apply divCeil_unique hd
      · rw [Nat.mul_sub]; omega
      · rw [Nat.mul_sub]; omega
    rw [this]; omega
  · rw [hc]
    by_cases hle : G.iters * (G.firstB col + 1) ≤ G.kt * (col + 1)
    · rw [if_pos hle, if_pos (by omega)]
      have hm1 : G.firstB col + 1 ≤ G.lastB col + 1 := by omega
      have : divCeil (G.kt - (G.iters * (G.firstB col + 1) - G.kt * col)) G.iters
          = G.lastB col + 1 - (G.firstB col + 1) := by
        have hmono := Nat.mul_le_mul_left G.iters hm1
        apply divCeil_unique hd
        · rw [Nat.mul_sub]; omega
        · rw [Nat.mul_sub]; omega
      rw [this]; omega
    · rw [if_neg hle]
      have : G.lastB col = G.firstB col := by
        rcases Nat.lt_or_ge (G.firstB col) (G.lastB col) with hlt | hge
        · have := Nat.mul_le_mul_left G.iters (show G.firstB col + 1 ≤ G.lastB col from hlt)
          omega
        · omega
      rw [this]; omega

/-- `slice_idx` numbers the blocks of the column from the bottom. -/
theorem Grid.idx_eq (G : Grid) (h : G.Ok) (b col : Nat)
    (hb : G.firstB col ≤ b ∧ b ≤ G.lastB col) :
    G.sliceIdx b col = (G.lastB col : Int) - b := by
  have h1 := G.first_spec h col
  have h2 := G.last_spec h col
  have hd := G.iters_pos h
  have hm : G.kt * (col + 1) = G.kt * col + G.kt := by ring
  have ef : G.iters * (G.firstB col + 1) = G.iters * G.firstB col + G.iters := by ring
  have hcount := G.count_eq h col
  have hfb := Nat.mul_le_mul_left G.iters hb.1
  unfold Grid.sliceIdx
  dsimp only
  rw [hcount]
  rcases G.ceil_cases h col with ⟨hc, he⟩ | ⟨hc, he⟩
  · rw [hc, if_pos (by omega)]
    rcases Nat.eq_or_lt_of_le hb.1 with hq | hq
    · rw [if_pos (by right; constructor <;> [omega; (rw [hq]; omega)])]
      omega
    · have hlt : G.iters * (G.firstB col + 1) ≤ G.iters * b := Nat.mul_le_mul_left _ hq
      rw [if_neg (by omega), if_neg (by omega)]
      have : ((G.iters * b : Nat) : Int) - ((G.iters * G.firstB col : Nat) : Int)
          = (G.iters : Int) * ((b : Int) - G.firstB col) := by push_cast; ring
      rw [this, Int.mul_ediv_cancel_left _ (by omega)]
      omega
  · rw [hc]
    by_cases hle : G.iters * (G.firstB col + 1) ≤ G.kt * (col + 1)
    · rw [if_pos hle]
      rcases Nat.eq_or_lt_of_le hb.1 with hq | hq
      · rw [if_pos (by left; rw [← hq]; omega)]
        omega
      · have hlt : G.iters * (G.firstB col + 1) ≤ G.iters * b := Nat.mul_le_mul_left _ hq
        rw [if_neg (by omega), if_pos (by omega)]
        have : ((G.iters * b : Nat) : Int) - ((G.iters * (G.firstB col + 1) : Nat) : Int)
            = (G.iters : Int) * ((b : Int) - (G.firstB col + 1)) := by push_cast; ring
        rw [this, Int.mul_ediv_cancel_left _ (by omega)]
        omega
    · rw [if_neg hle]
      have : G.lastB col = G.firstB col := by
        rcases Nat.lt_or_ge (G.firstB col) (G.lastB col) with hlt | hge
        · have := Nat.mul_le_mul_left G.iters (show G.firstB col + 1 ≤ G.lastB col from hlt)
          omega
        · have := G.first_le_last h col; omega
      omega

end Verif.Marlin
