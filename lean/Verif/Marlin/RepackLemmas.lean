import Verif.Marlin.Repack
import Verif.Marlin.StripeLemmas

namespace Verif.Marlin

open Verif.Kern (Upd run)

/-! ## Fields of a word -/

theorem field_eq (b w i : Nat) : field b w i = w / 2 ^ (i * b) % 2 ^ b := by
  unfold field
  rw [Nat.and_two_pow_sub_one_eq_mod, Nat.shiftRight_eq_div_pow]

theorem field_lt (b w i : Nat) : field b w i < 2 ^ b := by
  rw [field_eq]; exact Nat.mod_lt _ (by positivity)

/-- The number whose digits are the values. -/
def packNum (b : Nat) : List Nat → Nat
  | [] => 0
  | v :: vs => v + 2 ^ b * packNum b vs

theorem packFrom_eq (b : Nat) : ∀ (vs : List Nat) (i : Nat), (∀ v ∈ vs, v < 2 ^ b) →
    packFrom b i vs = 2 ^ (i * b) * packNum b vs := by
  intro vs
  induction vs with
  | nil => intro i _; simp [packFrom, packNum]
  | cons v vs ih =>
    intro i h
    have hv := h v List.mem_cons_self
    rw [packFrom, ih (i + 1) (fun w hw => h w (List.mem_cons_of_mem _ hw)), packNum,
      Nat.shiftLeft_eq]
    have e : 2 ^ ((i + 1) * b) * packNum b vs = (2 ^ b * packNum b vs) * 2 ^ (i * b) := by
      rw [Nat.add_mul, Nat.pow_add, Nat.one_mul]; ring
    rw [e, ← Nat.shiftLeft_eq, ← Nat.shiftLeft_eq, ← Nat.shiftLeft_or_distrib, Nat.or_comm,
      ← Nat.two_pow_add_eq_or_of_lt hv, Nat.shiftLeft_eq]
    ring

theorem packNum_digit (b : Nat) (hb : 0 < b) : ∀ (vs : List Nat) (i : Nat),
    (∀ v ∈ vs, v < 2 ^ b) → packNum b vs / 2 ^ (i * b) % 2 ^ b = vs.getD i 0 := by
  intro vs
  induction vs with
  | nil => intro i _; simp [packNum]
  | cons v vs ih =>
    intro i h
    have hv := h v List.mem_cons_self
    cases i with
    | zero =>
      simp only [packNum, Nat.zero_mul, Nat.pow_zero, Nat.div_one, Nat.add_mul_mod_self_left,
        List.getD_cons_zero]
      exact Nat.mod_eq_of_lt hv
    | succ i =>
      have e : (2 : Nat) ^ ((i + 1) * b) = 2 ^ b * 2 ^ (i * b) := by
        rw [Nat.add_mul, Nat.one_mul, Nat.add_comm, Nat.pow_add]
      rw [packNum, e, ← Nat.div_div_eq_div_mul, Nat.add_mul_div_left _ _ (by positivity),
        Nat.div_eq_of_lt hv, Nat.zero_add, List.getD_cons_succ]
      exact ih i (fun w hw => h w (List.mem_cons_of_mem _ hw))

theorem field_packWord (b : Nat) (hb : 0 < b) (vs : List Nat) (h : ∀ v ∈ vs, v < 2 ^ b) (i : Nat) :
    field b (packWord b vs) i = vs.getD i 0 := by
  unfold packWord
  rw [field_eq, packFrom_eq b vs 0 h]
  simpa using packNum_digit b hb vs i h

/-! ## The addresses written -/

theorem range_block (a c : Nat) :
    (List.range a).flatMap (fun i => (List.range c).map (fun j => i * c + j)) = List.range (a * c) := by
  induction a with
  | zero => simp
  | succ a ih =>
    rw [List.range_succ, List.flatMap_append, ih, Nat.add_mul, Nat.one_mul, List.range_add]
    simp

/-- Consecutive segments make up the whole range. -/
theorem segments (kt per : Nat) : ∀ blocks,
    (List.range blocks).flatMap (fun blk =>
      if blk * per ≥ kt then [] else (List.range (min (blk * per + per) kt - blk * per)).map (blk * per + ·))
      = List.range (min (blocks * per) kt) := by
  intro blocks
  induction blocks with
  | zero => simp
  | succ n ih =>
    rw [List.range_succ, List.flatMap_append, ih, Nat.add_mul, Nat.one_mul]
    simp only [List.flatMap_cons, List.flatMap_nil, List.append_nil]
    obtain ⟨s, hs⟩ : ∃ s, s = n * per := ⟨_, rfl⟩
    rw [← hs]
    by_cases h : s ≥ kt
    · rw [if_pos h, List.append_nil, Nat.min_eq_right h, Nat.min_eq_right (by omega)]
    · rw [if_neg h, Nat.min_eq_left (by omega : s ≤ kt)]
      have e : min (s + per) kt = s + (min (s + per) kt - s) := by omega
      conv_rhs => rw [e, List.range_add]

theorem kTiles_all (kt blocks : Nat) (hb : 0 < blocks) :
    (List.range blocks).flatMap (kTiles kt blocks) = List.range kt := by
  have := segments kt (divCeil kt blocks) blocks
  have hle : kt ≤ blocks * divCeil kt blocks := (divCeil_spec hb).1
  rw [Nat.min_eq_right hle] at this
  exact this

theorem flatMap_flatMap {α β γ : Type} (l : List α) (f : α → List β) (g : β → List γ) :
    l.flatMap (fun a => (f a).flatMap g) = (l.flatMap f).flatMap g := by
  induction l with
  | nil => rfl
  | cons a l ih => simp [ih]

/-- The tile offsets of the words, in the order of the threads. -/
theorem tile_words (b : Nat) (hb : b = 4 ∨ b = 8) :
    ((List.range 32).flatMap fun th => (List.range 4).flatMap fun w => (List.range (b / 4)).map
      fun half => if b = 4 then th * 4 + w else th * 8 + w * 2 + half)
      = List.range (16 * 64 / (32 / b)) := by
  rcases hb with rfl | rfl <;> decide +kernel

theorem repackWrites_eq (b K N blocks : Nat) (hblk : 0 < blocks)
    (vals : Nat → Nat → Nat → Nat → Nat → Nat) :
    repackWrites b K N blocks vals = (List.range (K / 16)).flatMap fun kt =>
      (List.range (N / 64)).flatMap fun nt =>
        (List.range 32).flatMap fun th =>
          (List.range 4).flatMap fun w =>
            (List.range (b / 4)).map fun half =>
              Upd.put (outIndex b N kt nt th w half) (outWord b (vals kt nt th w) half) := by
  unfold repackWrites
  rw [flatMap_flatMap, kTiles_all _ _ hblk]

theorem repackWrites_addrs (b K N blocks : Nat) (hb : b = 4 ∨ b = 8) (hblk : 0 < blocks)
    (vals : Nat → Nat → Nat → Nat → Nat → Nat) :
    (repackWrites b K N blocks vals).map Upd.addr
      = List.range (K / 16 * (N / 64) * (16 * 64 / (32 / b))) := by
  rw [repackWrites_eq _ _ _ _ hblk]
  simp only [List.map_flatMap, List.map_map]
  have inner : ∀ kt nt, ((List.range 32).flatMap fun th => (List.range 4).flatMap fun w =>
      (List.range (b / 4)).map (Upd.addr ∘ fun half =>
        Upd.put (outIndex b N kt nt th w half) (outWord b (vals kt nt th w) half)))
      = (List.range (16 * 64 / (32 / b))).map
          (fun j => (kt * (N / 64) + nt) * (16 * 64 / (32 / b)) + j) := by
    intro kt nt
    rw [← tile_words b hb, List.map_flatMap]
    congr 1; funext th
    rw [List.map_flatMap]
    congr 1; funext w
    rw [List.map_map]
    congr 1
  simp only [inner]
  rw [← range_block (K / 16 * (N / 64)), ← range_block (K / 16) (N / 64), ← flatMap_flatMap]
  congr 1; funext kt
  rw [List.flatMap_map]

theorem mem_repackWrites {b K N blocks : Nat} (hblk : 0 < blocks)
    {vals : Nat → Nat → Nat → Nat → Nat → Nat} {kt nt th w half : Nat} (hkt : kt < K / 16)
    (hnt : nt < N / 64) (hth : th < 32) (hw : w < 4) (hh : half < b / 4) :
    Upd.put (outIndex b N kt nt th w half) (outWord b (vals kt nt th w) half)
      ∈ repackWrites b K N blocks vals := by
  rw [repackWrites_eq _ _ _ _ hblk]
  simp only [List.mem_flatMap, List.mem_map, List.mem_range]
  exact ⟨kt, hkt, nt, hnt, th, hth, w, hw, half, hh, rfl⟩

/-- The value of each word after all writes, in any order. -/
theorem run_repack {b K N blocks : Nat} (hb : b = 4 ∨ b = 8) (hblk : 0 < blocks)
    {vals : Nat → Nat → Nat → Nat → Nat → Nat} {ws : List (Upd Nat)}
    (hp : ws.Perm (repackWrites b K N blocks vals)) (m : Nat → Nat)
    {kt nt th w half : Nat} (hkt : kt < K / 16)
    (hnt : nt < N / 64) (hth : th < 32) (hw : w < 4) (hh : half < b / 4) :
    run ws m (outIndex b N kt nt th w half) = outWord b (vals kt nt th w) half := by
  have hn : (ws.map Upd.addr).Nodup := by
    rw [(hp.map Upd.addr).nodup_iff, repackWrites_addrs b K N blocks hb hblk]
    exact List.nodup_range
  have hm := hp.mem_iff.2 (mem_repackWrites (b := b) (K := K) (N := N) (vals := vals) hblk hkt hnt
    hth hw hh)
  exact Verif.Kern.run_once hn hm m

end Verif.Marlin
