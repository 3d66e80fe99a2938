import Verif.Marlin.RepackLemmas
import Mathlib.Tactic.IntervalCases

/-!
# C156: repacking keeps every weight
-/

namespace Verif.Marlin

open Verif.Kern (Upd run)

/-! ## Specification

`v k n` is the quantised weight of input row `k` and output column `n`. -/

/-- The order of the columns in a word of an AWQ checkpoint. -/
def awqOrder (b i : Nat) : Nat :=
  if b = 4 then [0, 2, 4, 6, 1, 3, 5, 7].getD i 0 else [0, 2, 1, 3].getD i 0

/-- An AWQ checkpoint: `K × N/pf` words; each holds `pf` columns of one row, in AWQ order. -/
def AwqPacked (b K N : Nat) (B : Nat → Nat) (v : Nat → Nat → Nat) : Prop :=
  ∀ k c i, k < K → c < N / (32 / b) → i < 32 / b →
    field b (B (k * (N / (32 / b)) + c)) i = v k (c * (32 / b) + awqOrder b i)

/-- A GPTQ / compressed-tensors checkpoint: `K/pf × N` words; each holds `pf` rows of one column,
in order. -/
def GptqPacked (b K N : Nat) (B : Nat → Nat) (v : Nat → Nat → Nat) : Prop :=
  ∀ r n i, r < K / (32 / b) → n < N → i < 32 / b → field b (B (r * N + n)) i = v (r * (32 / b) + i) n

/-- The word of tile `(kt, nt)` that thread `th` of a warp of the GEMM unpacks for its 16 columns
`j` (and, with 8 bits, the half `c` of them). -/
def fragWord (b N kt nt th j c : Nat) : Nat :=
  if b = 4 then (kt * (N / 64) + nt) * 128 + th * 4 + j
  else (kt * (N / 64) + nt) * 256 + th * 8 + 2 * j + c

/-- The position in that word of register `r`, half `h` of fragment `c`. -/
def fragPos (b c r h : Nat) : Nat := if b = 4 then 2 * c + r + 4 * h else r + 2 * h

/-- The layout the GEMM needs: with the operand layout of the tensor-core instruction `m16n8k16`,
register `r`, half `h` of thread `th` is row `2 (th % 4) + 8 r + h` and column `th / 4`. -/
def InTiles (b K N : Nat) (out : Nat → Nat) (v : Nat → Nat → Nat) : Prop :=
  ∀ kt nt th j c r h, kt < K / 16 → nt < N / 64 → th < 32 → j < 4 → c < 2 → r < 2 → h < 2 →
    field b (out (fragWord b N kt nt th j c)) (fragPos b c r h)
      = v (16 * kt + (th % 4 * 2 + 8 * r + h)) (64 * nt + 16 * j + 8 * c + th / 4)

/-- The layout has one place for every weight: each row and column is the place of exactly one
tile, thread, column group, fragment, register and half. -/
theorem C156_places (K N : Nat) (hK : K % 16 = 0) (hN : N % 64 = 0) (k n : Nat) (hk : k < K)
    (hn : n < N) : ∃! p : Nat × Nat × Nat × Nat × Nat × Nat × Nat,
      p.1 < K / 16 ∧ p.2.1 < N / 64 ∧ p.2.2.1 < 32 ∧ p.2.2.2.1 < 4 ∧ p.2.2.2.2.1 < 2 ∧
      p.2.2.2.2.2.1 < 2 ∧ p.2.2.2.2.2.2 < 2 ∧
      16 * p.1 + (p.2.2.1 % 4 * 2 + 8 * p.2.2.2.2.2.1 + p.2.2.2.2.2.2) = k ∧
      64 * p.2.1 + 16 * p.2.2.2.1 + 8 * p.2.2.2.2.1 + p.2.2.1 / 4 = n := by
  refine ⟨(k / 16, n / 64, 4 * (n % 8) + k % 8 / 2, n % 64 / 16, n % 16 / 8, k % 16 / 8, k % 2),
    ⟨?_, ?_, ?_, ?_, ?_, ?_, ?_, ?_, ?_⟩, ?_⟩
  any_goals (dsimp only; omega)
  rintro ⟨a, b, c, d, e, f, g⟩ ⟨h1, h2, h3, h4, h5, h6, h7, h8, h9⟩
  dsimp only at *
  simp only [Prod.mk.injEq]
  refine ⟨?_, ?_, ?_, ?_, ?_, ?_, ?_⟩ <;> omega

theorem outWord_field {b : Nat} (hb : b = 4 ∨ b = 8) (vals : Nat → Nat)
    (hv : ∀ i, vals i < 2 ^ b) {c r h : Nat} (hc : c < 2) (hr : r < 2) (hh : h < 2) :
    field b (outWord b vals (if b = 4 then 0 else c)) (fragPos b c r h) = vals (4 * c + 2 * r + h) := by
  rcases hb with rfl | rfl
  · simp only [outWord, fragPos, if_true]
    rw [field_packWord 4 (by omega) _ (by
      intro x hx; simp only [List.mem_map] at hx
      obtain ⟨i, _, rfl⟩ := hx; exact hv i)]
    interval_cases c <;> interval_cases r <;> interval_cases h <;> rfl
  · simp only [outWord, fragPos, show ¬ (8 = 4) by omega, if_false]
    rw [field_packWord 8 (by omega) _ (by
      intro x hx; simp only [List.mem_map] at hx
      obtain ⟨i, _, rfl⟩ := hx; exact hv _)]
    interval_cases c <;> interval_cases r <;> interval_cases h <;> rfl

theorem outIndex_frag {b : Nat} (hb : b = 4 ∨ b = 8) (N kt nt th j c : Nat) :
    outIndex b N kt nt th j (if b = 4 then 0 else c) = fragWord b N kt nt th j c := by
  unfold outIndex fragWord
  rcases hb with rfl | rfl
  · simp only [if_true]; norm_num; omega
  · simp only [show ¬ (8 = 4) by omega, if_false]; norm_num; omega

/-- If the eight values of every thread are the right weights, the result is in the layout. -/
theorem inTiles_of_vals {b K N blocks : Nat} (hb : b = 4 ∨ b = 8) (hblk : 0 < blocks)
    {vals : Nat → Nat → Nat → Nat → Nat → Nat} (hlt : ∀ kt nt th w i, vals kt nt th w i < 2 ^ b)
    {v : Nat → Nat → Nat}
    (hv : ∀ kt nt th j c r h, kt < K / 16 → nt < N / 64 → th < 32 → j < 4 → c < 2 → r < 2 → h < 2 →
      vals kt nt th j (4 * c + 2 * r + h)
        = v (16 * kt + (th % 4 * 2 + 8 * r + h)) (64 * nt + 16 * j + 8 * c + th / 4))
    {ws : List (Upd Nat)} (hp : ws.Perm (repackWrites b K N blocks vals)) (m : Nat → Nat) :
    InTiles b K N (run ws m) v := by
  intro kt nt th j c r h hkt hnt hth hj hc hr hh
  rw [← outIndex_frag hb, run_repack hb hblk hp m hkt hnt hth hj (by rcases hb with rfl | rfl <;> simp; omega),
    outWord_field hb _ (hlt kt nt th j) hc hr hh]
  exact hv kt nt th j c r h hkt hnt hth hj hc hr hh

theorem tcOffset_eq {c r h : Nat} (hr : r < 2) (hh : h < 2) :
    tcOffset ((4 * c + 2 * r + h) % 4) = 8 * r + h := by
  have : (4 * c + 2 * r + h) % 4 = 2 * r + h := by omega
  rw [this]
  interval_cases r <;> interval_cases h <;> rfl

theorem undo_order {b : Nat} (hb : b = 4 ∨ b = 8) {i : Nat} (hi : i < 32 / b) :
    undoPack b i < 32 / b ∧ awqOrder b (undoPack b i) = i := by
  rcases hb with rfl | rfl
  · have : i < 8 := hi
    interval_cases i <;> decide
  · have : i < 4 := hi
    interval_cases i <;> decide

theorem awqFetch_word {b N : Nat} (hb : b = 4 ∨ b = 8) (B junk : Nat → Nat) (kt nt row col : Nat)
    (hr : row < 16) (hc : col < 64 / (32 / b)) :
    awqFetch b N B kt nt junk (col + 64 / (32 / b) * row)
      = B ((16 * kt + row) * (N / (32 / b)) + (64 / (32 / b) * nt + col)) := by
  unfold awqFetch repackThreads
  rcases hb with rfl | rfl
  · norm_num at hc ⊢
    rw [if_pos (by omega)]
    congr 1
    have e1 : (col + 8 * row) / 4 / 2 = row := by omega
    have e2 : 64 * nt / 8 = 8 * nt := by omega
    rw [e1, e2]
    generalize (16 * kt + row) * (N / 8) = X
    omega
  · norm_num at hc ⊢
    rw [if_pos (by omega)]
    congr 1
    have e1 : (col + 16 * row) / 4 / 4 = row := by omega
    have e2 : 64 * nt / 4 = 16 * nt := by omega
    rw [e1, e2]
    generalize (16 * kt + row) * (N / 4) = X
    omega

/-- **C156.** `awq_marlin_repack`: for every weight matrix, grid size and order of the threads'
writes, whatever the output buffer held before, every weight of the checkpoint ends up at its place
in the layout of the GEMM. -/
theorem C156_awq (b K N blocks : Nat) (hb : b = 4 ∨ b = 8) (hblk : 0 < blocks) (B junk : Nat → Nat)
    (v : Nat → Nat → Nat) (h : AwqPacked b K N B v)
    (ws : List (Upd Nat)) (hp : ws.Perm (awqWrites b K N blocks B junk)) (m : Nat → Nat) :
    InTiles b K N (run ws m) v := by
  refine inTiles_of_vals hb hblk (fun kt nt th w i => field_lt _ _ _) ?_ hp m
  intro kt nt th j c r h' hkt hnt hth hj hc hr hh
  rw [tcOffset_eq hr hh]
  have hif : (4 * c + 2 * r + h' < 4) ↔ c = 0 := by omega
  simp only [hif]
  have hrow : th % 4 * 2 + (8 * r + h') < 16 := by omega
  rcases hb with rfl | rfl
  · have hcol : (if c = 0 then (j * 16 + th / 4) / (32 / 4) else (j * 16 + th / 4) / (32 / 4) + 8 / (32 / 4))
        = 2 * j + c := by split_ifs <;> omega
    rw [hcol, awqFetch_word (Or.inl rfl) B junk kt nt _ _ hrow (by norm_num; omega)]
    obtain ⟨u1, u2⟩ := undo_order (b := 4) (Or.inl rfl) (i := (j * 16 + th / 4) % (32 / 4))
      (Nat.mod_lt _ (by norm_num))
    rw [h _ _ _ (by omega) (by norm_num; omega) u1, u2]
    congr 1 <;> norm_num <;> omega
  · have hcol : (if c = 0 then (j * 16 + th / 4) / (32 / 8) else (j * 16 + th / 4) / (32 / 8) + 8 / (32 / 8))
        = (j * 16 + th / 4) / 4 + 2 * c := by split_ifs <;> omega
    rw [hcol, awqFetch_word (Or.inr rfl) B junk kt nt _ _ hrow (by norm_num; omega)]
    obtain ⟨u1, u2⟩ := undo_order (b := 8) (Or.inr rfl) (i := (j * 16 + th / 4) % (32 / 8))
      (Nat.mod_lt _ (by norm_num))
    rw [h _ _ _ (by omega) (by norm_num; omega) u1, u2]
    congr 1 <;> norm_num <;> omega

theorem gptqFetch_word {b N : Nat} (hb : b = 4 ∨ b = 8) (B junk : Nat → Nat) (kt nt i col : Nat)
    (hi : i < 16 / (32 / b)) (hc : col < 64) :
    gptqFetch b N B kt nt junk (col + 64 * i)
      = B ((16 / (32 / b) * kt + i) * N + (64 * nt + col)) := by
  unfold gptqFetch repackThreads
  rcases hb with rfl | rfl
  · norm_num at hi ⊢
    rw [if_pos (by omega)]
    congr 1
    have e1 : (col + 64 * i) / 4 / 16 = i := by omega
    have e2 : 16 * kt / 8 = 2 * kt := by omega
    rw [e1, e2]
    generalize (2 * kt + i) * N = X
    omega
  · norm_num at hi ⊢
    rw [if_pos (by omega)]
    congr 1
    have e1 : (col + 64 * i) / 4 / 16 = i := by omega
    have e2 : 16 * kt / 4 = 4 * kt := by omega
    rw [e1, e2]
    generalize (4 * kt + i) * N = X
    omega

/-- **C156.** `gptq_marlin_repack` without a permutation. -/
theorem C156_gptq (b K N blocks : Nat) (hb : b = 4 ∨ b = 8) (hblk : 0 < blocks) (B junk : Nat → Nat)
    (v : Nat → Nat → Nat) (h : GptqPacked b K N B v)
    (ws : List (Upd Nat)) (hp : ws.Perm (gptqWrites b K N blocks B junk)) (m : Nat → Nat) :
    InTiles b K N (run ws m) v := by
  refine inTiles_of_vals hb hblk (fun kt nt th w i => field_lt _ _ _) ?_ hp m
  intro kt nt th j c r h' hkt hnt hth hj hc hr hh
  rw [tcOffset_eq hr hh]
  have hif : (4 * c + 2 * r + h' < 4) ↔ c = 0 := by omega
  simp only [hif]
  obtain ⟨row, hrow⟩ : ∃ row, row = th % 4 * 2 + (8 * r + h') := ⟨_, rfl⟩
  rw [← hrow]
  have hr16 : row < 16 := by omega
  have hcol : (if c = 0 then j * 16 + th / 4 else j * 16 + th / 4 + 8) = 16 * j + 8 * c + th / 4 := by
    split_ifs <;> omega
  rw [hcol]
  have hrow' : th % 4 * 2 + 8 * r + h' = row := by omega
  rw [hrow']
  clear hrow hrow'
  rcases hb with rfl | rfl
  · rw [gptqFetch_word (Or.inl rfl) B junk kt nt _ _ (by norm_num; omega) (by omega),
      h _ _ _ (by norm_num; omega) (by omega) (Nat.mod_lt _ (by norm_num))]
    congr 1 <;> norm_num <;> omega
  · rw [gptqFetch_word (Or.inr rfl) B junk kt nt _ _ (by norm_num; omega) (by omega),
      h _ _ _ (by norm_num; omega) (by omega) (Nat.mod_lt _ (by norm_num))]
    congr 1 <;> norm_num <;> omega

theorem permFetch_word {b N : Nat} (perm B junk : Nat → Nat) (kt nt row col : Nat)
    (hr : row < 16) (hc : col < 64) :
    permFetch b N perm B kt nt junk (row * 64 + col)
      = B ((perm (16 * kt + row) / (32 / b)) * N + (64 * nt + col)) := by
  unfold permFetch repackThreads
  dsimp only
  rw [if_pos (by omega)]
  have e1 : (row * 64 + col) / 4 / 16 = row := by omega
  rw [e1]
  congr 1
  generalize perm (16 * kt + row) / (32 / b) * N = X
  omega

/-- **C156.** `gptq_marlin_repack` with a permutation of the rows: row `k` of the result is row
`perm k` of the checkpoint. -/
theorem C156_gptq_perm (b K N blocks : Nat) (hb : b = 4 ∨ b = 8) (hblk : 0 < blocks)
    (perm B junk : Nat → Nat) (hperm : ∀ k, k < K → perm k < K) (hK : K % 16 = 0)
    (v : Nat → Nat → Nat) (h : GptqPacked b K N B v)
    (ws : List (Upd Nat)) (hp : ws.Perm (permWrites b K N blocks perm B junk)) (m : Nat → Nat) :
    InTiles b K N (run ws m) (fun k n => v (perm k) n) := by
  refine inTiles_of_vals hb hblk (fun kt nt th w i => field_lt _ _ _) ?_ hp m
  intro kt nt th j c r h' hkt hnt hth hj hc hr hh
  rw [tcOffset_eq hr hh]
  have hif : (4 * c + 2 * r + h' < 4) ↔ c = 0 := by omega
  simp only [hif]
  obtain ⟨row, hrow⟩ : ∃ row, row = th % 4 * 2 + (8 * r + h') := ⟨_, rfl⟩
  rw [← hrow]
  have hcol : (if c = 0 then j * 16 + th / 4 else j * 16 + th / 4 + 8) = 16 * j + 8 * c + th / 4 := by
    split_ifs <;> omega
  rw [hcol]
  have hrow' : th % 4 * 2 + 8 * r + h' = row := by omega
  rw [hrow', permFetch_word perm B junk kt nt _ _ (by omega) (by omega)]
  have hp1 := hperm (16 * kt + row) (by omega)
  have hpf : 0 < 32 / b := by rcases hb with rfl | rfl <;> norm_num
  have hdvd : K / (32 / b) * (32 / b) = K := by
    rcases hb with rfl | rfl <;> norm_num <;> omega
  rw [h _ _ _ (by rw [Nat.div_lt_iff_lt_mul hpf, hdvd]; exact hp1) (by omega) (Nat.mod_lt _ hpf)]
  congr 1
  · rw [Nat.mul_comm]; exact Nat.div_add_mod _ _
  · omega

/-- **C156.** Nothing is written outside the output tensor (`K/16 × 16·N/pf` words), and every
word of it is written exactly once. -/
theorem C156_writes (b K N blocks : Nat) (hb : b = 4 ∨ b = 8) (hblk : 0 < blocks)
    (hN : N % 64 = 0) (vals : Nat → Nat → Nat → Nat → Nat → Nat) :
    (repackWrites b K N blocks vals).map Upd.addr = List.range (K / 16 * (N * 16 / (32 / b))) := by
  rw [repackWrites_addrs b K N blocks hb hblk]
  congr 1
  rw [Nat.mul_assoc]
  congr 1
  obtain ⟨q, rfl⟩ := Nat.dvd_of_mod_eq_zero hN
  rcases hb with rfl | rfl <;> norm_num <;> omega

/-! Non-vacuity: a 16 × 64 checkpoint whose weight at `(k, n)` is `(k + n) % 16`. -/

def exampleV (k n : Nat) : Nat := (k + n) % 16

def exampleAwq (a : Nat) : Nat :=
  packWord 4 ((List.range 8).map fun i => exampleV (a / 8) (a % 8 * 8 + awqOrder 4 i))

example : AwqPacked 4 16 64 exampleAwq exampleV := by
  intro k c i hk hc hi
  have h8 : c < 8 := hc
  unfold exampleAwq
  rw [field_packWord 4 (by omega) _ (by
    intro x hx; simp only [List.mem_map] at hx
    obtain ⟨i, _, rfl⟩ := hx; exact Nat.mod_lt _ (by omega))]
  have e1 : (k * (64 / (32 / 4)) + c) / 8 = k := by norm_num; omega
  have e2 : (k * (64 / (32 / 4)) + c) % 8 = c := by norm_num; omega
  rw [e1, e2]
  have hi8 : i < 8 := hi
  interval_cases i <;> rfl

def exampleGptq (a : Nat) : Nat :=
  packWord 4 ((List.range 8).map fun i => exampleV (a / 64 * 8 + i) (a % 64))

example : GptqPacked 4 16 64 exampleGptq exampleV := by
  intro r n i hr hn hi
  unfold exampleGptq
  rw [field_packWord 4 (by omega) _ (by
    intro x hx; simp only [List.mem_map] at hx
    obtain ⟨i, _, rfl⟩ := hx; exact Nat.mod_lt _ (by omega))]
  have e1 : (r * 64 + n) / 64 = r := by omega
  have e2 : (r * 64 + n) % 64 = n := by omega
  rw [e1, e2]
  have hi8 : i < 8 := hi
  interval_cases i <;> rfl

end Verif.Marlin
