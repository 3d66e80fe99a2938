import Verif.Ops.Elewise

/-!
# C72: causal mask

Sources: `mllm/core/aops/CausalMaskOp.cpp` L29-L32 (output shape), `mllm/backends/cpu/ops/CausalMaskOp.cpp`
L20-L292 (`forward`).  The SIMD variants write the same positions as the plain loops (blocks of 8 or 4
and a remainder); the plain loops are modelled.  `memcpy` of `n` elements is `n` copies.
-/

namespace Verif.Ops

open Verif.Tensor

variable {α : Type}

/-! ### Model -/

/-- Element `e` of the input slice `(b, h)`: `i_ptr[e]` with `i_ptr = ins.offsettedPtr({b,h,0,0})`. -/
def sliceAt (t : Tens α) (b h e : Nat) : Option α := t.mem (t.addr [b, h, 0, 0] + e)

/-- One row of the standard fp32 mask (L85-L94): positions relative to the slice.  `copy_count` is
computed in `size_t`; a negative value becomes a huge number and the `memcpy` leaves the buffers. -/
def stdRow32 (inp : Nat → Option α) (mask : α) (S D r : Nat) : Option (List (Nat × Option α)) :=
  let cc : Int := (D : Int) - S + r + 1
  if cc < 0 then none
  else
    let c := cc.toNat
    some ((List.range c).map (fun e => (r * D + e, inp (r * D + e))) ++
      (List.range (D - c)).map fun e => (r * D + c + e, some mask))

/-- One row of the standard fp16 mask (L203-L212). -/
def stdRow16 (inp : Nat → Option α) (mask : α) (S s : Nat) : List (Nat × Option α) :=
  (List.range (s + 1)).map (fun e => (s * S + e, inp (s * S + e))) ++
    (List.range (S - (s + 1))).map fun e => (s * S + (s + 1) + e, some mask)

/-- One row of the sliding-window mask, fp32 (L97-L139) and fp16 (L214-L273) alike. -/
def winRow (inp : Nat → Option α) (mask : α) (S W s : Nat) : List (Nat × Option α) :=
  let start := ((s : Int) - W + 1).toNat
  (List.range (s + 1 - start)).map (fun e => (s * S + start + e, inp (s * S + start + e))) ++
    ((List.range start).map (fun e => (s * S + e, some mask)) ++
      (List.range (S - (s + 1))).map fun e => (s * S + (s + 1) + e, some mask))

/-- The row written by the branch taken. `half`: fp16; `win`: the window size when the option
`sliding_window` is set. -/
def maskRow (half : Bool) (win : Option Nat) (inp : Nat → Option α) (mask : α) (S D r : Nat) :
    Option (List (Nat × Option α)) :=
  match win, half with
  | none, false => stdRow32 inp mask S D r
  | none, true => some (stdRow16 inp mask S r)
  | some W, _ => some (winRow inp mask S W r)

/-- Shift of a slice's writes to its place in the output. -/
def shiftW (base : Nat) (ws : List (Nat × Option α)) : List (Nat × Option α) :=
  ws.map fun w => (base + w.1, w.2)

/-- `CPUCausalMaskOp::forward` (L20-L292) with the output of `reshape`.  `none`: the program leaves its
buffers. -/
def causalMask (half : Bool) (win : Option Nat) (mask : α) (t : Tens α) : Option (Tens α) :=
  match t.shape with
  | [B, H, S, D] =>
    if S = 1 then
      some (fresh t.shape (bufV ((List.range B).flatMap fun b => (List.range H).flatMap fun h =>
        shiftW ((b * H + h) * (S * D)) ((List.range D).map fun e => (e, sliceAt t b h e)))))
    else if (List.range B).all fun b => (List.range H).all fun h => (List.range S).all fun r =>
        (maskRow half win (sliceAt t b h) mask S D r).isSome then
      some (fresh t.shape (bufV ((List.range B).flatMap fun b => (List.range H).flatMap fun h =>
        (List.range S).flatMap fun r =>
          shiftW ((b * H + h) * (S * D)) ((maskRow half win (sliceAt t b h) mask S D r).getD []))))
    else none
  | _ => none

/-! ### Specification -/

/-- Key `c` is visible to query `r`: with `S` queries and `D` keys the queries are the last `S`
positions, so query `r` is at position `D - S + r`; it sees itself and what lies before it, with a
window only the last `W` positions. -/
def Visible (win : Option Nat) (S D r c : Nat) : Prop :=
  c + S ≤ D + r ∧ ∀ W, win = some W → D + r < c + S + W

/-- The rows of the input are row-major (the two outer dimensions may have any strides). -/
def InnerContig (t : Tens α) (D : Nat) : Prop :=
  ∃ s0 s1 : Int, t.stride = [s0, s1, (D : Int), 1]

/-- The result of a correct mask. -/
def MaskSpec (win : Option Nat) (mask : α) (t r : Tens α) (S D : Nat) : Prop :=
  r.shape = t.shape ∧ ∀ b h q c, InB t.shape [b, h, q, c] →
    (Visible win S D q c → r.elem [b, h, q, c] = t.elem [b, h, q, c]) ∧
    (¬ Visible win S D q c → r.elem [b, h, q, c] = some mask)

/-! ### Lemmas -/

theorem lin4 (B H S D b h r c : Nat) :
    lin [B, H, S, D] [b, h, r, c] = (b * H + h) * (S * D) + (r * D + c) := by
  simp only [lin, numel]; ring

theorem inB4 {B H S D b h r c : Nat} : InB [B, H, S, D] [b, h, r, c] ↔ b < B ∧ h < H ∧ r < S ∧ c < D := by
  simp [InB]

theorem sliceAt_elem {t : Tens α} {D : Nat} (hc : InnerContig t D) (b h r c : Nat) :
    sliceAt t b h (r * D + c) = t.elem [b, h, r, c] := by
  obtain ⟨s0, s1, hs⟩ := hc
  unfold sliceAt Tens.elem
  congr 1
  simp only [Tens.addr, hs, dot]
  push_cast; ring

/-- A rectangular family of row writes puts value `V b h r c` at index `[b,h,r,c]`. -/
theorem rows_elem {B H S D : Nat} {V : Nat → Nat → Nat → Nat → Option α}
    {row : Nat → Nat → Nat → List (Nat × Option α)}
    (hrow : ∀ b h r, b < B → h < H → r < S →
      (∀ w ∈ row b h r, ∃ c, c < D ∧ w = (r * D + c, V b h r c)) ∧
      ∀ c, c < D → (r * D + c, V b h r c) ∈ row b h r)
    {b h r c : Nat} (hi : InB [B, H, S, D] [b, h, r, c]) :
    bufV ((List.range B).flatMap fun b => (List.range H).flatMap fun h => (List.range S).flatMap fun r =>
      shiftW ((b * H + h) * (S * D)) (row b h r)) (lin [B, H, S, D] [b, h, r, c]) = V b h r c := by
  have hi' := inB4.mp hi
  apply bufV_eq
  · intro w hw hk
    simp only [List.mem_flatMap, List.mem_range, shiftW, List.mem_map] at hw
    obtain ⟨b', hb', h', hh', r', hr', w', hw', rfl⟩ := hw
    obtain ⟨c', hc', rfl⟩ := (hrow b' h' r' hb' hh' hr').1 w' hw'
    dsimp only at hk ⊢
    rw [← lin4] at hk
    have := lin_inj (inB4.mpr ⟨hb', hh', hr', hc'⟩) hi hk
    simp only [List.cons.injEq, and_true] at this
    obtain ⟨rfl, rfl, rfl, rfl⟩ := this
    rfl
  · simp only [List.mem_flatMap, List.mem_range, shiftW, List.mem_map]
    refine ⟨b, hi'.1, h, hi'.2.1, r, hi'.2.2.1, (r * D + c, V b h r c),
      (hrow b h r hi'.1 hi'.2.1 hi'.2.2.1).2 c hi'.2.2.2, ?_⟩
    rw [lin4]

/-- A row whose writes are copies of a column interval and masks elsewhere. -/
theorem row_split (f g : Nat → Option α) {D lo hi base : Nat} (hlo : lo ≤ hi) (hhi : hi ≤ D)
    (ws : List (Nat × Option α))
    (hws : ∀ w, w ∈ ws ↔ (∃ e, e < hi - lo ∧ w = (base + (lo + e), f (lo + e))) ∨
      (∃ e, e < lo ∧ w = (base + e, g e)) ∨ (∃ e, e < D - hi ∧ w = (base + (hi + e), g (hi + e)))) :
    (∀ w ∈ ws, ∃ c, c < D ∧ w = (base + c, if lo ≤ c ∧ c < hi then f c else g c)) ∧
      ∀ c, c < D → (base + c, if lo ≤ c ∧ c < hi then f c else g c) ∈ ws := by
  constructor
  · intro w hw
    rcases (hws w).mp hw with ⟨e, he, rfl⟩ | ⟨e, he, rfl⟩ | ⟨e, he, rfl⟩
    · exact ⟨lo + e, by omega, by rw [if_pos (by omega)]⟩
    · exact ⟨e, by omega, by rw [if_neg (by omega)]⟩
    · exact ⟨hi + e, by omega, by rw [if_neg (by omega)]⟩
  · intro c hc
    apply (hws _).mpr
    by_cases h1 : c < lo
    · exact Or.inr (Or.inl ⟨c, h1, by rw [if_neg (by omega)]⟩)
    · by_cases h2 : c < hi
      · exact Or.inl ⟨c - lo, by omega, by rw [if_pos (by omega), show lo + (c - lo) = c by omega]⟩
      · exact Or.inr (Or.inr ⟨c - hi, by omega, by
          rw [if_neg (by omega), show hi + (c - hi) = c by omega]⟩)

/-- From row values to the specification. -/
theorem mask_spec_of_rows {win : Option Nat} {half : Bool} {mask : α} {t : Tens α} {B H S D : Nat}
    (hs : t.shape = [B, H, S, D]) (hc : InnerContig t D) (hS : S ≠ 1)
    (lo hi : Nat → Nat) (hlo : ∀ r, r < S → lo r ≤ hi r ∧ hi r ≤ D)
    (hvis : ∀ r c, r < S → c < D → ((lo r ≤ c ∧ c < hi r) ↔ Visible win S D r c))
    (hrow : ∀ inp : Nat → Option α, ∀ r, r < S → ∃ ws, maskRow half win inp mask S D r = some ws ∧
      ∀ w, w ∈ ws ↔ (∃ e, e < hi r - lo r ∧ w = (r * D + (lo r + e), inp (r * D + (lo r + e)))) ∨
        (∃ e, e < lo r ∧ w = (r * D + e, some mask)) ∨
        (∃ e, e < D - hi r ∧ w = (r * D + (hi r + e), some mask))) :
    ∃ r, causalMask half win mask t = some r ∧ MaskSpec win mask t r S D := by
  let row : Nat → Nat → Nat → List (Nat × Option α) := fun b h r =>
    (maskRow half win (sliceAt t b h) mask S D r).getD []
  refine ⟨fresh t.shape (bufV ((List.range B).flatMap fun b => (List.range H).flatMap fun h =>
      (List.range S).flatMap fun r => shiftW ((b * H + h) * (S * D)) (row b h r))), ?_, rfl, ?_⟩
  · unfold causalMask
    rw [hs]
    dsimp only
    rw [if_neg hS, if_pos]
    simp only [List.all_eq_true, List.mem_range]
    intro b _ h _ r hr
    obtain ⟨ws, e, _⟩ := hrow (sliceAt t b h) r hr
    rw [e]; rfl
  · intro b h q c hin
    rw [hs] at hin
    have hin' := inB4.mp hin
    rw [fresh_elem _ _ (by rw [hs]; exact hin), hs]
    rw [rows_elem (V := fun b h r c => if lo r ≤ c ∧ c < hi r then sliceAt t b h (r * D + c) else some mask)
      (row := row) ?_ hin]
    · constructor
      · intro hv
        rw [if_pos ((hvis q c hin'.2.2.1 hin'.2.2.2).mpr hv), sliceAt_elem hc]
      · intro hv
        rw [if_neg (fun h => hv ((hvis q c hin'.2.2.1 hin'.2.2.2).mp h))]
    · intro b h r _ _ hr
      obtain ⟨ws, e, hws⟩ := hrow (sliceAt t b h) r hr
      have : row b h r = ws := by simp only [row, e, Option.getD_some]
      rw [this]
      exact row_split (fun c => sliceAt t b h (r * D + c)) (fun _ => some mask) (hlo r hr).1 (hlo r hr).2
        ws hws

/-! ### C72 -/

/-- **C72, fp32 without window.** For every batch, head count, number of queries and of keys (the keys
may include any number of earlier positions) the result is the input where the key is visible and the
mask value elsewhere.  Up to one more query than keys is accepted. -/
theorem causal_mask_fp32 (mask : α) (t : Tens α) (B H S D : Nat) (hs : t.shape = [B, H, S, D])
    (hc : InnerContig t D) (hSD : S ≤ D + 1) (h1 : S ≠ 1) :
    ∃ r, causalMask false none mask t = some r ∧ MaskSpec none mask t r S D := by
  apply mask_spec_of_rows hs hc h1 (fun _ => 0) (fun r => D + r + 1 - S)
  · intro r hr; omega
  · intro r c hr hcD
    unfold Visible
    constructor
    · intro h; exact ⟨by omega, fun W hW => by cases hW⟩
    · intro h; have := h.1; omega
  · intro inp r hr
    have hcc : ¬ ((D : Int) - S + r + 1 < 0) := by omega
    have hto : ((D : Int) - S + r + 1).toNat = D + r + 1 - S := by omega
    refine ⟨_, by simp only [maskRow, stdRow32]; rw [if_neg hcc, hto], ?_⟩
    intro w
    simp only [List.mem_append, List.mem_map, List.mem_range]
    constructor
    · rintro (⟨e, he, rfl⟩ | ⟨e, he, rfl⟩)
      · exact Or.inl ⟨e, by omega, by simp⟩
      · exact Or.inr (Or.inr ⟨e, he, by rw [Nat.add_assoc]⟩)
    · rintro (⟨e, he, rfl⟩ | ⟨e, he, rfl⟩ | ⟨e, he, rfl⟩)
      · exact Or.inl ⟨e, by omega, by simp⟩
      · omega
      · exact Or.inr ⟨e, he, by rw [Nat.add_assoc]⟩

/-- **C72, one query.** Nothing is masked: right without a window, and with a window that covers all
keys; both number types. -/
theorem causal_mask_one (half : Bool) (win : Option Nat) (mask : α) (t : Tens α) (B H D : Nat)
    (hs : t.shape = [B, H, 1, D]) (hc : InnerContig t D) (hw : ∀ W, win = some W → D ≤ W) :
    ∃ r, causalMask half win mask t = some r ∧ MaskSpec win mask t r 1 D := by
  refine ⟨_, by unfold causalMask; rw [hs]; dsimp only; rw [if_pos rfl], by simp [fresh, hs], ?_⟩
  intro b h q c hin
  rw [hs] at hin
  have hin' := inB4.mp hin
  have hq : q = 0 := by omega
  subst hq
  have hv : Visible win 1 D 0 c := ⟨by omega, fun W hW => by have := hw W hW; omega⟩
  refine ⟨fun _ => ?_, fun h => absurd hv h⟩
  rw [fresh_elem _ _ hin]
  have := rows_elem (B := B) (H := H) (S := 1) (D := D)
    (V := fun b h r c => sliceAt t b h (r * D + c))
    (row := fun b h _ => (List.range D).map fun e => (e, sliceAt t b h e)) ?_ hin
  · simp only [List.range_one, List.flatMap_cons, List.flatMap_nil, List.append_nil] at this
    rw [this, sliceAt_elem hc]
  · intro b h r _ _ hr
    have : r = 0 := by omega
    subst this
    simp only [List.mem_map, List.mem_range, Nat.zero_mul, Nat.zero_add]
    exact ⟨by rintro w ⟨e, he, rfl⟩; exact ⟨e, he, rfl⟩, fun c hc => ⟨c, hc, rfl⟩⟩

/-- **C72, fp16 without window:** right when there are as many keys as queries. -/
theorem causal_mask_fp16_partial (mask : α) (t : Tens α) (B H S : Nat) (hs : t.shape = [B, H, S, S])
    (hc : InnerContig t S) (h1 : S ≠ 1) :
    ∃ r, causalMask true none mask t = some r ∧ MaskSpec none mask t r S S := by
  apply mask_spec_of_rows hs hc h1 (fun _ => 0) (fun r => r + 1)
  · intro r hr; omega
  · intro r c hr hcD
    unfold Visible
    constructor
    · intro h; exact ⟨by omega, fun W hW => by cases hW⟩
    · intro h; have := h.1; omega
  · intro inp r hr
    refine ⟨_, rfl, ?_⟩
    intro w
    simp only [stdRow16, List.mem_append, List.mem_map, List.mem_range]
    constructor
    · rintro (⟨e, he, rfl⟩ | ⟨e, he, rfl⟩)
      · exact Or.inl ⟨e, by omega, by simp⟩
      · exact Or.inr (Or.inr ⟨e, he, by rw [Nat.add_assoc]⟩)
    · rintro (⟨e, he, rfl⟩ | ⟨e, he, rfl⟩ | ⟨e, he, rfl⟩)
      · exact Or.inl ⟨e, by omega, by simp⟩
      · omega
      · exact Or.inr ⟨e, he, by rw [Nat.add_assoc]⟩

/-- **C72, sliding window:** right when there are as many keys as queries (and more than one). -/
theorem causal_mask_window_partial (half : Bool) (W : Nat) (mask : α) (t : Tens α) (B H S : Nat)
    (hs : t.shape = [B, H, S, S]) (hc : InnerContig t S) (h1 : S ≠ 1) :
    ∃ r, causalMask half (some W) mask t = some r ∧ MaskSpec (some W) mask t r S S := by
  apply mask_spec_of_rows hs hc h1 (fun r => ((r : Int) - W + 1).toNat) (fun r => r + 1)
  · intro r hr; omega
  · intro r c hr hcD
    unfold Visible
    constructor
    · intro h; exact ⟨by omega, fun W' hW => by cases hW; omega⟩
    · intro h; have := h.1; have := h.2 W rfl; omega
  · intro inp r hr
    refine ⟨winRow inp mask S W r, by cases half <;> rfl, ?_⟩
    intro w
    simp only [winRow, List.mem_append, List.mem_map, List.mem_range]
    constructor
    · rintro (⟨e, he, rfl⟩ | ⟨e, he, rfl⟩ | ⟨e, he, rfl⟩)
      · exact Or.inl ⟨e, by omega, by rw [Nat.add_assoc]⟩
      · exact Or.inr (Or.inl ⟨e, he, rfl⟩)
      · exact Or.inr (Or.inr ⟨e, he, by rw [Nat.add_assoc]⟩)
    · rintro (⟨e, he, rfl⟩ | ⟨e, he, rfl⟩ | ⟨e, he, rfl⟩)
      · exact Or.inl ⟨e, by omega, by rw [Nat.add_assoc]⟩
      · exact Or.inr (Or.inl ⟨e, he, rfl⟩)
      · exact Or.inr (Or.inr ⟨e, he, by rw [Nat.add_assoc]⟩)

/-- Every write of one slice lies in its first `S * S` positions, in the branches that use `S` as the
row length. -/
theorem square_writes {half : Bool} {win : Option Nat} (hb : half = true ∨ win.isSome) {mask : α}
    {inp : Nat → Option α} {S D r : Nat} (hr : r < S) {ws : List (Nat × Option α)}
    (h : maskRow half win inp mask S D r = some ws) : ∀ w ∈ ws, w.1 < S * S := by
  have hrow : ∀ x, x < S → r * S + x < S * S := by
    intro x hx
    have : (r + 1) * S ≤ S * S := Nat.mul_le_mul_right _ hr
    rw [Nat.succ_mul] at this; omega
  intro w hw
  cases win with
  | none =>
    rcases hb with rfl | hb
    · simp only [maskRow, Option.some.injEq] at h
      subst h
      simp only [stdRow16, List.mem_append, List.mem_map, List.mem_range] at hw
      rcases hw with ⟨e, he, rfl⟩ | ⟨e, he, rfl⟩
      · exact hrow e (by omega)
      · have := hrow (r + 1 + e) (by omega)
        dsimp only; omega
    · cases hb
  | some W =>
    have : ws = winRow inp mask S W r := by cases half <;> simp [maskRow] at h <;> exact h.symm
    subst this
    simp only [winRow, List.mem_append, List.mem_map, List.mem_range] at hw
    rcases hw with ⟨e, he, rfl⟩ | ⟨e, he, rfl⟩ | ⟨e, he, rfl⟩
    · have := hrow (((r : Int) - W + 1).toNat + e) (by omega)
      dsimp only; omega
    · exact hrow e (by omega)
    · have := hrow (r + 1 + e) (by omega)
      dsimp only; omega

/-- **C72 is violated with earlier keys** in fp16, and in both number types with a sliding window: for
every shape with `D > S ≥ 2` the score of the last query for itself, which is always visible (for any
window of at least 1), is never written. -/
theorem mask_history_violated (half : Bool) (win : Option Nat) (hb : half = true ∨ win.isSome) (mask : α)
    (t r : Tens α) (B H S D : Nat) (hs : t.shape = [B, H, S, D]) (hS : 2 ≤ S) (hD : S < D)
    (b h : Nat) (hbB : b < B) (hhH : h < H)
    (hr : causalMask half win mask t = some r) :
    (∀ W, win = some W → 1 ≤ W) → Visible win S D (S - 1) (D - 1) ∧
      InB t.shape [b, h, S - 1, D - 1] ∧ r.elem [b, h, S - 1, D - 1] = none := by
  intro hW
  have hin : InB [B, H, S, D] [b, h, S - 1, D - 1] := inB4.mpr ⟨hbB, hhH, by omega, by omega⟩
  refine ⟨⟨by omega, fun W hw => by have := hW W hw; omega⟩, by rw [hs]; exact hin, ?_⟩
  unfold causalMask at hr
  rw [hs] at hr
  dsimp only at hr
  rw [if_neg (by omega)] at hr
  split_ifs at hr with hall
  simp only [Option.some.injEq] at hr
  subst hr
  rw [fresh_elem _ _ hin]
  apply bufV_none_or
  intro w hw hk
  exfalso
  simp only [List.mem_flatMap, List.mem_range, shiftW, List.mem_map] at hw
  obtain ⟨b', hb', h', hh', r', hr', w', hw', rfl⟩ := hw
  cases hrow : maskRow half win (sliceAt t b' h') mask S D r' with
  | none => rw [hrow] at hw'; simp at hw'
  | some ws =>
    rw [hrow] at hw'
    have hlt := square_writes hb hr' hrow w' hw'
    dsimp only at hk
    rw [lin4] at hk
    have hSD : S * S < S * D := Nat.mul_lt_mul_of_pos_left hD (by omega)
    have hlast : (S - 1) * D + (D - 1) = S * D - 1 := by
      obtain ⟨k, rfl⟩ : ∃ k, S = k + 1 := ⟨S - 1, by omega⟩
      rw [Nat.add_sub_cancel, Nat.succ_mul]; omega
    rw [hlast] at hk
    have hge : S * S ≤ S * D - 1 := by omega
    have hpos : 0 < S * D := by omega
    have q1 : ((b' * H + h') * (S * D) + w'.1) / (S * D) = b' * H + h' := by
      rw [Nat.add_comm, Nat.add_mul_div_right _ _ hpos, Nat.div_eq_of_lt (by omega)]; omega
    have q2 : ((b * H + h) * (S * D) + (S * D - 1)) / (S * D) = b * H + h := by
      rw [Nat.add_comm, Nat.add_mul_div_right _ _ hpos, Nat.div_eq_of_lt (by omega)]; omega
    have : b' * H + h' = b * H + h := by rw [← q1, hk, q2]
    rw [this] at hk
    omega

/-- **C72 is violated for a single query with a window:** decoding one token against more than `W` keys
masks nothing. -/
theorem mask_decode_window_violated (half : Bool) (W : Nat) (mask : α) (t : Tens α) (B H D : Nat)
    (hs : t.shape = [B, H, 1, D]) (hc : InnerContig t D) (hWD : W < D) (b h : Nat) (hbB : b < B)
    (hhH : h < H) :
    ∃ r, causalMask half (some W) mask t = some r ∧ ¬ Visible (some W) 1 D 0 0 ∧
      r.elem [b, h, 0, 0] = t.elem [b, h, 0, 0] := by
  obtain ⟨r, h1, h2, h3⟩ := causal_mask_one half none mask t B H D hs hc (fun W h => by cases h)
  have hin : InB t.shape [b, h, 0, 0] := by rw [hs]; exact inB4.mpr ⟨hbB, hhH, by omega, by omega⟩
  refine ⟨r, ?_, ?_, (h3 b h 0 0 hin).1 ⟨by omega, fun W h => by cases h⟩⟩
  · rw [← h1]; unfold causalMask; rw [hs]; dsimp only; rw [if_pos rfl, if_pos rfl]
  · intro hv; have := hv.2 W rfl; omega

/-- **C72, too many queries:** with at least two more queries than keys the fp32 mask leaves its
buffers. -/
theorem mask_overflow_violated (mask : α) (t : Tens α) (B H S D : Nat) (hs : t.shape = [B, H, S, D])
    (hB : 0 < B) (hH : 0 < H) (hSD : D + 2 ≤ S) : causalMask false none mask t = none := by
  unfold causalMask
  rw [hs]
  dsimp only
  rw [if_neg (by omega), if_neg]
  simp only [List.all_eq_true, List.mem_range, not_forall]
  refine ⟨0, hB, 0, hH, 0, by omega, ?_⟩
  simp only [maskRow, stdRow32]
  rw [if_pos (by omega)]
  simp

/-- The hypotheses are met: prefill with two earlier keys. -/
example : ∃ r, causalMask false none 0 (exact [1, 2, 2, 4] (· + 1)) = some r ∧
    r.elem [0, 1, 0, 2] = some 11 ∧ r.elem [0, 1, 0, 3] = some 0 ∧ r.elem [0, 1, 1, 3] = some 16 ∧
    InnerContig (exact [1, 2, 2, 4] (· + 1)) 4 :=
  ⟨_, rfl, by decide +kernel, by decide +kernel, by decide +kernel, ⟨16, 8, by decide +kernel⟩⟩

example : ∃ r, causalMask true none 0 (exact [1, 1, 2, 3] (· + 1)) = some r ∧
    r.elem [0, 0, 1, 2] = none ∧ r.elem [0, 0, 0, 1] = some 0 ∧ Visible none 2 3 0 1 :=
  ⟨_, rfl, by decide +kernel, by decide +kernel, by omega, fun W h => by cases h⟩

end Verif.Ops
