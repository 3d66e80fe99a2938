import Verif.Bits.Codec

/-!
# Round trips of the block functions
-/

namespace Verif.Bits

theorem high_false {b : Byte} {n : Nat} (h : b.toNat < 2 ^ n) (i : Nat) (hi : n ≤ i) (hi8 : i < 8) : b[i] = false := by
  rw [← BitVec.getLsbD_eq_getElem, BitVec.getLsbD]
  exact Nat.testBit_lt_two_pow (lt_of_lt_of_le h (Nat.pow_le_pow_right (by decide) hi))

/-- One lane: what was packed comes back. -/
def LaneOk (J R bits : Nat) (pk up : (Nat → Byte) → Nat → Byte) : Prop :=
  ∀ w : Nat → Byte, (∀ j, j < J → (w j).toNat < 2 ^ bits) → ∀ q : Nat → Byte, (∀ r, r < R → q r = pk w r) →
    ∀ j, j < J → up q j = w j

macro "lane_bits" h:ident : tactic => `(tactic| (
  apply BitVec.eq_of_getLsbD_eq
  intro i hi
  interval_cases i <;> simp [$h:ident]))

theorem ok1 : LaneOk 8 1 1 pk1 up1 := by
  intro w hw q hq j hj
  have hb : ∀ j i (h8 : i < 8), j < 8 → 1 ≤ i → (w j)[i] = false := fun j i h8 h1 h2 => high_false (hw j h1) i h2 h8
  rw [up1, hq 0 (by decide), pk1]
  interval_cases j <;> lane_bits hb

theorem ok2 : LaneOk 4 1 2 pk2 up2 := by
  intro w hw q hq j hj
  have hb : ∀ j i (h8 : i < 8), j < 4 → 2 ≤ i → (w j)[i] = false := fun j i h8 h1 h2 => high_false (hw j h1) i h2 h8
  have h0 := hq 0 (by decide)
  rw [pk2] at h0
  interval_cases j <;> simp only [up2, h0] <;> lane_bits hb

theorem ok3 : LaneOk 8 3 3 pk3 up3 := by
  intro w hw q hq j hj
  have hb : ∀ j i (h8 : i < 8), j < 8 → 3 ≤ i → (w j)[i] = false := fun j i h8 h1 h2 => high_false (hw j h1) i h2 h8
  have h0 := hq 0 (by decide)
  have h1 := hq 1 (by decide)
  have h2 := hq 2 (by decide)
  simp only [pk3] at h0 h1 h2
  interval_cases j <;> simp only [up3, h0, h1, h2] <;> lane_bits hb

theorem ok4 : LaneOk 2 1 4 pk4 up4 := by
  intro w hw q hq j hj
  have hb : ∀ j i (h8 : i < 8), j < 2 → 4 ≤ i → (w j)[i] = false := fun j i h8 h1 h2 => high_false (hw j h1) i h2 h8
  have h0 := hq 0 (by decide)
  rw [pk4] at h0
  interval_cases j <;> simp only [up4, h0] <;> lane_bits hb

theorem ok5 : LaneOk 8 5 5 pk5 up5 := by
  intro w hw q hq j hj
  have hb : ∀ j i (h8 : i < 8), j < 8 → 5 ≤ i → (w j)[i] = false := fun j i h8 h1 h2 => high_false (hw j h1) i h2 h8
  have h0 := hq 0 (by decide)
  have h1 := hq 1 (by decide)
  have h2 := hq 2 (by decide)
  have h3 := hq 3 (by decide)
  have h4 := hq 4 (by decide)
  simp only [pk5] at h0 h1 h2 h3 h4
  interval_cases j <;> simp only [up5, h0, h1, h2, h3, h4] <;> lane_bits hb

theorem ok6 : LaneOk 4 3 6 pk6 up6 := by
  intro w hw q hq j hj
  have hb : ∀ j i (h8 : i < 8), j < 4 → 6 ≤ i → (w j)[i] = false := fun j i h8 h1 h2 => high_false (hw j h1) i h2 h8
  have h0 := hq 0 (by decide)
  have h1 := hq 1 (by decide)
  have h2 := hq 2 (by decide)
  simp only [pk6] at h0 h1 h2
  interval_cases j <;> simp only [up6, vsri, h0, h1, h2] <;> lane_bits hb

theorem ok7 (mask : Bool) : LaneOk 8 7 7 pk7 (up7 mask) := by
  intro w hw q hq j hj
  have hb : ∀ j i (h8 : i < 8), j < 8 → 7 ≤ i → (w j)[i] = false := fun j i h8 h1 h2 => high_false (hw j h1) i h2 h8
  have hl : up7last q = w 7 := by
    unfold up7last
    rw [hq 0 (by decide), hq 1 (by decide), hq 2 (by decide), hq 3 (by decide), hq 4 (by decide), hq 5 (by decide),
      hq 6 (by decide)]
    simp only [pk7, vsli, vsri]
    lane_bits hb
  unfold up7
  by_cases h7 : j < 7
  · rw [if_pos h7, hq j h7]
    simp only [pk7, vsli]
    apply BitVec.eq_of_getLsbD_eq
    intro i hi
    interval_cases i <;> simp [hb j _ _ hj]
  · have : j = 7 := by omega
    subst this
    rw [if_neg h7, hl]
    cases mask
    · rfl
    · rw [if_pos rfl]
      lane_bits hb

theorem bits7 : ∀ x : Byte, x.toNat < 128 →
    ((vsli 0 (vtst x (1#8 <<< 0)) 7 &&& 0x80) >>> 7) + ((vsli 0 (vtst x (1#8 <<< 1)) 7 &&& 0x80) >>> 6)
      + ((vsli 0 (vtst x (1#8 <<< 2)) 7 &&& 0x80) >>> 5) + ((vsli 0 (vtst x (1#8 <<< 3)) 7 &&& 0x80) >>> 4)
      + ((vsli 0 (vtst x (1#8 <<< 4)) 7 &&& 0x80) >>> 3) + ((vsli 0 (vtst x (1#8 <<< 5)) 7 &&& 0x80) >>> 2)
      + ((vsli 0 (vtst x (1#8 <<< 6)) 7 &&& 0x80) >>> 1) + (0#8 &&& 0x80) = x := by
  decide +kernel

theorem vsli_high (a b : Byte) : vsli a b 7 &&& 0x80 = vsli 0 b 7 &&& 0x80 := by
  unfold vsli
  apply BitVec.eq_of_getLsbD_eq
  intro i hi
  interval_cases i <;> simp

theorem vsli_low (a b : Byte) (h : a.toNat < 2 ^ 7) : vsli a b 7 &&& 0x7F = a := by
  have hb := fun i h2 h8 => high_false h i h2 h8
  unfold vsli
  lane_bits hb

theorem ok7s : LaneOk 8 7 7 pk7s up7s := by
  intro w hw q hq j hj
  unfold up7s
  by_cases h7 : j < 7
  · rw [if_pos h7, hq j h7]
    exact vsli_low _ _ (hw j hj)
  · have : j = 7 := by omega
    subst this
    rw [if_neg h7, hq 0 (by decide), hq 1 (by decide), hq 2 (by decide), hq 3 (by decide), hq 4 (by decide), hq 5 (by decide),
      hq 6 (by decide)]
    simp only [pk7s]
    rw [vsli_high (w 0), vsli_high (w 1), vsli_high (w 2), vsli_high (w 3), vsli_high (w 4), vsli_high (w 5), vsli_high (w 6)]
    exact bits7 (w 7) (hw 7 (by decide))

/-! ## Blocks -/

/-- What was packed comes back, whatever is in memory behind the packed bytes. -/
def Codec.Ok (c : Codec) (bits : Nat) : Prop :=
  ∀ u : Nat → Byte, (∀ i, i < c.n → (u i).toNat < 2 ^ bits) → ∀ q : Nat → Byte, (∀ p, p < c.b → q p = c.pack u p) →
    ∀ i, i < c.n → c.unpack q i = u i

theorem lanes_ok {L J R bits : Nat} (hL : 0 < L) {pk up : (Nat → Byte) → Nat → Byte} (h : LaneOk J R bits pk up) :
    (lanes L J R pk up).Ok bits := by
  intro u hu q hq i hi
  have hil : i % L < L := Nat.mod_lt _ hL
  have hij : i / L < J := (Nat.div_lt_iff_lt_mul hL).2 hi
  have key := h (fun j => u (j * L + i % L)) (fun j hj => hu _ (by
      show j * L + i % L < J * L
      calc j * L + i % L < j * L + L := by omega
        _ = (j + 1) * L := by ring
        _ ≤ J * L := Nat.mul_le_mul_right _ hj)) (fun r => q (r * L + i % L)) (fun r hr => by
      have hlt : r * L + i % L < R * L := by
        calc r * L + i % L < r * L + L := by omega
          _ = (r + 1) * L := by ring
          _ ≤ R * L := Nat.mul_le_mul_right _ hr
      rw [hq _ hlt]
      show pk _ ((r * L + i % L) / L) = _
      rw [Nat.mul_comm r L, Nat.mul_add_mod, Nat.mod_mod, Nat.mul_add_div hL, Nat.div_eq_of_lt hil, Nat.add_zero])
    (i / L) hij
  show up _ (i / L) = u i
  rw [key]
  congr 1
  rw [Nat.mul_comm]
  exact Nat.div_add_mod i L

theorem times_ok {c : Codec} {bits : Nat} (hn : 0 < c.n) (hb : 0 < c.b) (h : c.Ok bits) (m : Nat) : (c.times m).Ok bits := by
  intro u hu q hq i hi
  have hr : i % c.n < c.n := Nat.mod_lt _ hn
  have hd : i / c.n < m := (Nat.div_lt_iff_lt_mul hn).2 hi
  have key := h (fun x => u (i / c.n * c.n + x)) (fun x hx => hu _ (by
      show i / c.n * c.n + x < m * c.n
      calc i / c.n * c.n + x < i / c.n * c.n + c.n := by omega
        _ = (i / c.n + 1) * c.n := by ring
        _ ≤ m * c.n := Nat.mul_le_mul_right _ hd)) (fun p => q (i / c.n * c.b + p)) (fun p hp => by
      have hlt : i / c.n * c.b + p < m * c.b := by
        calc i / c.n * c.b + p < i / c.n * c.b + c.b := by omega
          _ = (i / c.n + 1) * c.b := by ring
          _ ≤ m * c.b := Nat.mul_le_mul_right _ hd
      rw [hq _ hlt]
      show c.pack (fun x => u ((i / c.n * c.b + p) / c.b * c.n + x)) ((i / c.n * c.b + p) % c.b) = _
      rw [Nat.mul_comm (i / c.n) c.b, Nat.mul_add_mod, Nat.mod_eq_of_lt hp, Nat.mul_add_div hb, Nat.div_eq_of_lt hp, Nat.add_zero])
    (i % c.n) hr
  show c.unpack _ (i % c.n) = u i
  rw [key]
  congr 1
  rw [Nat.mul_comm]
  exact Nat.div_add_mod i c.n

theorem nib64 (a0 a1 a2 a3 b0 b1 b2 b3 : Byte) (h : ∀ x ∈ [a0, a1, a2, a3, b0, b1, b2, b3], x.toNat < 2 ^ 1) :
    vsli (a0 <<< 3 ||| a1 <<< 2 ||| a2 <<< 1 ||| a3) (b0 <<< 3 ||| b1 <<< 2 ||| b2 <<< 1 ||| b3) 4 &&& 0xF
        = a0 <<< 3 ||| a1 <<< 2 ||| a2 <<< 1 ||| a3 ∧
    vsli (a0 <<< 3 ||| a1 <<< 2 ||| a2 <<< 1 ||| a3) (b0 <<< 3 ||| b1 <<< 2 ||| b2 <<< 1 ||| b3) 4 >>> 4
        = b0 <<< 3 ||| b1 <<< 2 ||| b2 <<< 1 ||| b3 := by
  have hb : ∀ x ∈ [a0, a1, a2, a3, b0, b1, b2, b3], ∀ i (h8 : i < 8), 1 ≤ i → x[i] = false :=
    fun x hx i h8 h2 => high_false (h x hx) i h2 h8
  simp only [List.forall_mem_cons] at hb
  obtain ⟨g0, g1, g2, g3, g4, g5, g6, g7, -⟩ := hb
  unfold vsli
  constructor
  · apply BitVec.eq_of_getLsbD_eq
    intro i hi
    interval_cases i <;> simp [g0, g1, g2, g3, g4, g5, g6, g7]
  · apply BitVec.eq_of_getLsbD_eq
    intro i hi
    interval_cases i <;> simp [g0, g1, g2, g3, g4, g5, g6, g7]

theorem pick64 (a0 a1 a2 a3 : Byte) (h : ∀ x ∈ [a0, a1, a2, a3], x.toNat < 2 ^ 1) :
    ((a0 <<< 3 ||| a1 <<< 2 ||| a2 <<< 1 ||| a3) &&& 8) >>> 3 = a0 ∧
    ((a0 <<< 3 ||| a1 <<< 2 ||| a2 <<< 1 ||| a3) &&& 4) >>> 2 = a1 ∧
    ((a0 <<< 3 ||| a1 <<< 2 ||| a2 <<< 1 ||| a3) &&& 2) >>> 1 = a2 ∧
    (a0 <<< 3 ||| a1 <<< 2 ||| a2 <<< 1 ||| a3) &&& 1 = a3 := by
  have hb : ∀ x ∈ [a0, a1, a2, a3], ∀ i (h8 : i < 8), 1 ≤ i → x[i] = false :=
    fun x hx i h8 h2 => high_false (h x hx) i h2 h8
  simp only [List.forall_mem_cons] at hb
  obtain ⟨g0, g1, g2, g3, -⟩ := hb
  refine ⟨?_, ?_, ?_, ?_⟩ <;>
  · apply BitVec.eq_of_getLsbD_eq
    intro i hi
    interval_cases i <;> simp [g0, g1, g2, g3]

theorem u1x64_ok : u1x64.Ok 1 := by
  intro u hu q hq i hi
  have hu : ∀ i, i < 64 → (u i).toNat < 2 ^ 1 := hu
  have hi : i < 64 := hi
  obtain ⟨l, hl⟩ : ∃ l, l = i % 16 := ⟨_, rfl⟩
  have hl16 : l < 16 := by omega
  have hc : (if l < 8 then q l &&& 0xF else q (l - 8) >>> 4)
      = u l <<< 3 ||| u (16 + l) <<< 2 ||| u (32 + l) <<< 1 ||| u (48 + l) := by
    by_cases h8 : l < 8
    · rw [if_pos h8, hq l h8]
      exact (nib64 _ _ _ _ _ _ _ _ (by
        simp only [List.forall_mem_cons]
        refine ⟨hu _ (by omega), hu _ (by omega), hu _ (by omega), hu _ (by omega), hu _ (by omega), hu _ (by omega),
          hu _ (by omega), hu _ (by omega), by simp⟩)).1
    · rw [if_neg h8, hq (l - 8) (by show l - 8 < 8; omega)]
      have := (nib64 _ _ _ _ _ _ _ _ (by
        simp only [List.forall_mem_cons]
        refine ⟨hu (l - 8) (by omega), hu (16 + (l - 8)) (by omega), hu (32 + (l - 8)) (by omega), hu (48 + (l - 8)) (by omega),
          hu (8 + (l - 8)) (by omega), hu (16 + (8 + (l - 8))) (by omega),
          hu (32 + (8 + (l - 8))) (by omega), hu (48 + (8 + (l - 8))) (by omega), by simp⟩)).2
      rw [show 8 + (l - 8) = l by omega] at this
      show vsli _ _ 4 >>> 4 = _
      rw [show 8 + (l - 8) = l by omega]
      exact this
  obtain ⟨p0, p1, p2, p3⟩ := pick64 (u l) (u (16 + l)) (u (32 + l)) (u (48 + l)) (by
    simp only [List.forall_mem_cons]
    exact ⟨hu _ (by omega), hu _ (by omega), hu _ (by omega), hu _ (by omega), by simp⟩)
  unfold u1x64
  dsimp only
  rw [← hl, hc]
  obtain ⟨g, hg⟩ : ∃ g, g = i / 16 := ⟨_, rfl⟩
  have hg4 : g < 4 := by omega
  have hi' : i = 16 * g + l := by omega
  rw [← hg, hi']
  clear hg hi' hl hi
  interval_cases g
  · exact p0.trans (congrArg u (by omega))
  · exact p1.trans (congrArg u (by omega))
  · exact p2.trans (congrArg u (by omega))
  · exact p3.trans (congrArg u (by omega))

theorem u5x64_ok : u5x64.Ok 5 := by
  intro u hu q hq i hi
  have hu : ∀ i, i < 64 → (u i).toNat < 2 ^ 5 := hu
  have hi : i < 64 := hi
  have hq : ∀ p, p < 40 → q p = u5x64.pack u p := hq
  have hb : ∀ j i (h8 : i < 8), j < 64 → 5 ≤ i → (u j)[i] = false := fun j i h8 h1 h2 => high_false (hu j h1) i h2 h8
  obtain ⟨l, hl⟩ : ∃ l, l = i % 16 := ⟨_, rfl⟩
  obtain ⟨g, hg⟩ : ∃ g, g = i / 16 := ⟨_, rfl⟩
  have hl16 : l < 16 := by omega
  have hg4 : g < 4 := by omega
  have hi' : i = 16 * g + l := by omega
  have q0 : q l = u l ||| u (16 + l) <<< 5 := by
    rw [hq l (by omega)]; show (if l < 16 then _ else _) = _; rw [if_pos hl16]
  have q1 : q (16 + l) = u (32 + l) ||| u (48 + l) <<< 5 := by
    rw [hq (16 + l) (by omega)]
    show (if 16 + l < 16 then _ else if 16 + l < 32 then _ else _) = _
    rw [if_neg (by omega), if_pos (by omega), show 16 + l - 16 = l by omega]
  have q2 : ∀ x, x < 8 → q (32 + x) = u (16 + x) >>> 3 ||| (u (24 + x) >>> 3) <<< 2 ||| (u (48 + x) >>> 3) <<< 4
      ||| (u (56 + x) >>> 3) <<< 6 := by
    intro x hx
    rw [hq (32 + x) (by omega)]
    show (if 32 + x < 16 then _ else if 32 + x < 32 then _ else _) = _
    rw [if_neg (by omega), if_neg (by omega), show 32 + x - 32 = x by omega]
  have g0 := fun i h8 h5 => hb l i h8 (by omega) h5
  have g1 := fun i h8 h5 => hb (16 + l) i h8 (by omega) h5
  have g2 := fun i h8 h5 => hb (32 + l) i h8 (by omega) h5
  have g3 := fun i h8 h5 => hb (48 + l) i h8 (by omega) h5
  unfold u5x64
  dsimp only
  rw [← hl, ← hg, hi']
  clear hg hi' hi hl
  by_cases h8 : l < 8
  · have e1 := q2 l h8
    have g4 := fun i h8 h5 => hb (24 + l) i h8 (by omega) h5
    have g5 := fun i h8 h5 => hb (56 + l) i h8 (by omega) h5
    rw [if_pos h8, if_pos h8, q0, q1, e1]
    interval_cases g
    · rw [show 16 * 0 + l = l by omega]
      apply BitVec.eq_of_getLsbD_eq
      intro i hi
      interval_cases i <;> simp [g0, g1]
    · rw [show 16 * 1 + l = 16 + l by omega]
      apply BitVec.eq_of_getLsbD_eq
      intro i hi
      interval_cases i <;> simp [g0, g1, g2, g3, g4, g5]
    · rw [show 16 * 2 + l = 32 + l by omega]
      apply BitVec.eq_of_getLsbD_eq
      intro i hi
      interval_cases i <;> simp [g2, g3]
    · rw [show 16 * 3 + l = 48 + l by omega]
      apply BitVec.eq_of_getLsbD_eq
      intro i hi
      interval_cases i <;> simp [g0, g1, g2, g3, g4, g5]
  · have e1 := q2 (l - 8) (by omega)
    rw [show 24 + (l - 8) = 16 + l by omega, show 56 + (l - 8) = 48 + l by omega] at e1
    have g4 := fun i h8 h5 => hb (16 + (l - 8)) i h8 (by omega) h5
    have g5 := fun i h8 h5 => hb (48 + (l - 8)) i h8 (by omega) h5
    rw [if_neg h8, if_neg h8, q0, q1, e1]
    interval_cases g
    · rw [show 16 * 0 + l = l by omega]
      apply BitVec.eq_of_getLsbD_eq
      intro i hi
      interval_cases i <;> simp [g0, g1]
    · rw [show 16 * 1 + l = 16 + l by omega]
      apply BitVec.eq_of_getLsbD_eq
      intro i hi
      interval_cases i <;> simp [g0, g1, g2, g3, g4, g5]
    · rw [show 16 * 2 + l = 32 + l by omega]
      apply BitVec.eq_of_getLsbD_eq
      intro i hi
      interval_cases i <;> simp [g2, g3]
    · rw [show 16 * 3 + l = 48 + l by omega]
      apply BitVec.eq_of_getLsbD_eq
      intro i hi
      interval_cases i <;> simp [g0, g1, g2, g3, g4, g5]

theorem raw_ok (n bits : Nat) : (raw n).Ok bits := by
  intro u _ q hq i hi
  exact hq i hi

end Verif.Bits
