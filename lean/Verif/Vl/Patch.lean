import Verif.Tensor.JoinProps
import Verif.Tensor.PermuteProps
import Verif.Tensor.ViewProps
/-
C112: the image patches of the Qwen2-VL / Qwen2.5-VL front end and the coordinates attached to them.
Sources: mllm/models/qwen2vl/image_preprocessor_qwen2vl.hpp, mllm/models/qwen2vl/modeling_qwen2vl.hpp,
mllm/models/qwen2vl/tokenization_qwen2vl.hpp (mllm/models/qwen2_5vl/* hold the same code).

Assumptions: `int` arithmetic does not overflow; `Image::resize(w, h)` returns an image of exactly the size
asked for; `Tensor` operators are those of `Verif.Tensor` (C18-C20, C40, C41).
-/
namespace Verif.Vl
open Verif.Tensor
variable {α β : Type}

/-! ### The patch matrix -/

/-- `patches * (1.f/255.f)` and the three normalisation loops, image_preprocessor_qwen2vl.hpp L74-87:
every element of the `[C, H, W]` tensor is replaced by a function of its channel and its value. The loops
visit every element once and write it in place; one pass with a fresh result here. -/
def normalise (norm : Nat → α → β) (t : Tens α) : Tens β :=
  fresh t.shape fun k => (t.elem (coords t.shape k)).map (norm ((coords t.shape k).getD 0 0))

/-- `Qwen2VLImagePreprocessor::operator()` from the resized image `[H, W, C]` to the patch matrix,
image_preprocessor_qwen2vl.hpp L70-108. `temporal_patch_size_ = merge_size_ = 2`, `patch_size_ = 14`. -/
def patches (thr : Option Nat) (norm : Nat → α → β) (img : Tens α) : Option (Tens β) := do
  let chw := permute thr img [2, 0, 1]
  let x ← unsqueeze (normalise norm chw) 0
  let x ← repeatOp x 2 0
  let newH := img.shape.getD 0 0
  let newW := img.shape.getD 1 0
  let channel := x.shape.getD 1 0
  let gridT := x.shape.getD 0 0 / 2
  let gridH := newH / 14
  let gridW := newW / 14
  let x ← view x (asInts [gridT, 2, channel, gridH / 2, 2, 14, gridW / 2, 2, 14])
  view (permute thr x [0, 3, 6, 4, 7, 2, 1, 5, 8]) (asInts [gridT * gridH * gridW, channel * 2 * 14 * 14])

/-- `grid_thw`, image_preprocessor_qwen2vl.hpp L110-113. -/
def gridTHW (img : Tens α) : Nat × Nat × Nat := (1 * 2 / 2, img.shape.getD 0 0 / 14, img.shape.getD 1 0 / 14)

/-! ### The coordinates -/

/-- The writes into `flatten_hpos`/`flatten_wpos`, modeling_qwen2vl.hpp L65-84. -/
def hwWrites (m h w : Nat) : List (Nat × (Nat × Nat)) :=
  (List.range ((h / m) * (w / m))).flatMap fun b => (List.range m).flatMap fun jh =>
    (List.range m).map fun jw =>
      (b * (m * m) + jh * m + jw, ((b / (w / m)) * m + jh, (b % (w / m)) * m + jw))

/-- The last value written at a position; a `std::vector<int>(n)` starts with zeros. -/
def flatPos (m h w pos : Nat) : Nat × Nat :=
  (((hwWrites m h w).filter fun e => e.1 == pos).getLast?.map (·.2)).getD (0, 0)

/-- `makeVisualRotaryPosEmbIds`, modeling_qwen2vl.hpp L29-93: one row per patch of every frame of every
image. -/
def posIds (m : Nat) (grids : List (Nat × Nat × Nat)) : List (Nat × Nat) :=
  grids.flatMap fun g => (List.range g.1).flatMap fun _ =>
    (List.range (g.2.1 * g.2.2)).map (flatPos m g.2.1 g.2.2)

/-! ### The rotary table of the vision tower -/

/-- `makeVisualRotaryPosEmbFull`, modeling_qwen2vl.hpp L95-109: row `i` is `i * inv_freq`. `none`: the assert
on `seq_len`. Exact arithmetic. -/
def rotFull [Mul β] [NatCast β] (freq : List β) (seqLen : Nat) : Option (List (List β)) :=
  if 0 < seqLen then some ((List.range seqLen).map fun (i : Nat) => freq.map fun f => (i : β) * f) else none

/-- `makeVisualRotaryPosEmb`, modeling_qwen2vl.hpp L134-179. `grid` is row 0 of `grid_thw`. `none`: one of the
error exits. -/
def rotGather (full : List (List β)) (dim : Nat) (ids : List (Nat × Nat)) (grid : Nat × Nat × Nat) :
    Option (List (List β)) :=
  if full.length = 0 ∨ dim = 0 ∨ ids.length = 0 then none
  else if grid.1 * grid.2.1 * grid.2.2 ≠ ids.length then none
  else if ids.all (fun p => p.1 < full.length && p.2 < full.length) then
    some (ids.map fun p => full.getD p.1 [] ++ full.getD p.2 [])
  else none

/-- The calls in `Qwen2VLForCausalLM::forward`, modeling_qwen2vl.hpp L722-727, up to the angles:
`vLen` is the number of rows of the patch matrix, `grids` the rows of `grid_thw`. -/
def rotAngles [Mul β] [NatCast β] (freq : List β) (vLen : Nat) (grids : List (Nat × Nat × Nat)) :
    Option (List (List β)) := do
  let full ← rotFull freq vLen
  rotGather full freq.length (posIds 2 grids) (grids.headD (0, 0, 0))

/-! ### The image tokens -/

/-- `convertMessage`, tokenization_qwen2vl.hpp L254-266: `img_token_nums - 1` further pads after the first
pad. `none`: no pad token in the ids (`it + 1` past the end) or no image token at all (negative count). -/
def expandPads (pad : Int) (ids : List Int) (g : Nat × Nat × Nat) : Option (List Int) :=
  let n := g.1 * g.2.1 * g.2.2 / 4
  if pad ∈ ids ∧ 0 < n then
    some (ids.take (ids.idxOf pad + 1) ++ List.replicate (n - 1) pad ++ ids.drop (ids.idxOf pad + 1))
  else none

/-! ### Lemmas -/

theorem view_ok (t : Tens α) (sh : List Nat) (hc : t.Contig) (hn : numel sh = numel t.shape) :
    ∃ r, view t (asInts sh) = some r ∧ r.shape = sh ∧ r.Contig ∧
      ∀ i j, InB sh i → InB t.shape j → lin sh i = lin t.shape j → r.elem i = t.elem j := by
  obtain ⟨r, h1, h2⟩ := view_accepts t sh hc hn
  refine ⟨r, h1, h2, ?_, ?_⟩
  · obtain ⟨q, hv, -⟩ := view_some h1
    rcases (viewTo_some hv).2.2.2.2 with ⟨h3, h4⟩ | h3
    · have h5 := (viewTo_some hv).2.2.1
      rw [Tens.Contig, h4, hc, h5, h3]
    · exact h3.2
  · intro i j hi hj he
    have := (view_keeps_elements t r _ h1).2.2.2.2.2 i j
    rw [h2] at this
    exact this hi hj he

theorem normalise_elem (norm : Nat → α → β) (t : Tens α) {c : Nat} {q : List Nat}
    (h : InB t.shape (c :: q)) : (normalise norm t).elem (c :: q) = (t.elem (c :: q)).map (norm c) := by
  unfold normalise
  rw [fresh_elem _ _ h, coords_lin h]
  simp

theorem inB3 {A B C a b c : Nat} : InB [A, B, C] [a, b, c] ↔ a < A ∧ b < B ∧ c < C := by simp [InB]

theorem inB9 {n0 n1 n2 n3 n4 n5 n6 n7 n8 a0 a1 a2 a3 a4 a5 a6 a7 a8 : Nat} :
    InB [n0, n1, n2, n3, n4, n5, n6, n7, n8] [a0, a1, a2, a3, a4, a5, a6, a7, a8] ↔
      a0 < n0 ∧ a1 < n1 ∧ a2 < n2 ∧ a3 < n3 ∧ a4 < n4 ∧ a5 < n5 ∧ a6 < n6 ∧ a7 < n7 ∧ a8 < n8 := by
  simp [InB]

/-- The patch matrix, in coordinates: row `(i, j, jh, jw)` is the patch at `(2i+jh, 2j+jw)`. -/
theorem patches_elem (thr : Option Nat) (norm : Nat → α → β) (img : Tens α) (a b : Nat)
    (hs : img.shape = [28 * a, 28 * b, 3]) (hc : img.Contig) :
    ∃ r, patches thr norm img = some r ∧ r.shape = [(2 * a) * (2 * b), 3 * 2 * 14 * 14] ∧
      ∀ i j jh jw c k y x, i < a → j < b → jh < 2 → jw < 2 → c < 3 → k < 2 → y < 14 → x < 14 →
        r.elem [((i * b + j) * 2 + jh) * 2 + jw, ((c * 2 + k) * 14 + y) * 14 + x] =
          (img.elem [(2 * i + jh) * 14 + y, (2 * j + jw) * 14 + x, c]).map (norm c) := by
  -- permute to [C, H, W]
  have hp1 := permute_elements_partial thr img [2, 0, 1] hc (by rw [hs]; simp)
    (by rw [hs]; exact (by decide : [2, 0, 1].Perm (List.range 3)))
  obtain ⟨e1, e2, -, e4⟩ := hp1
  rw [hs] at e1 e4
  simp only [List.map, List.getD_cons_succ, List.getD_cons_zero] at e1
  set chw := permute thr img [2, 0, 1] with hchw
  have hn1 : (normalise norm chw).shape = [3, 28 * a, 28 * b] := e1
  have hnc : (normalise norm chw).Contig := fresh_contig _ _
  -- unsqueeze
  have hun : unsqueeze (normalise norm chw) 0 = view (normalise norm chw) (asInts [1, 3, 28 * a, 28 * b]) := by
    unfold unsqueeze; rw [hn1]; simp [asInts]
  obtain ⟨u, hu1, hu2, hu3, hu4⟩ := view_ok (normalise norm chw) [1, 3, 28 * a, 28 * b] hnc
    (by rw [hn1]; simp [numel])
  -- repeat
  obtain ⟨r2, hr1, hr2, hr3, hr4⟩ := repeat_elements_partial u [] [3, 28 * a, 28 * b] 1 2 (by simpa using hu2) hu3
  have hr1' : repeatOp u 2 0 = some r2 := by simpa using hr1
  have hr2' : r2.shape = [2, 3, 28 * a, 28 * b] := by simpa using hr2
  have h28a : 28 * a / 14 = 2 * a := by omega
  have h28b : 28 * b / 14 = 2 * b := by omega
  have h2a : 2 * a / 2 = a := by omega
  have h2b : 2 * b / 2 = b := by omega
  -- view to nine dimensions
  obtain ⟨v, hv1, hv2, hv3, hv4⟩ := view_ok r2 [1, 2, 3, a, 2, 14, b, 2, 14] hr3
    (by rw [hr2']; simp [numel]; ring)
  -- permute
  have hp2 := permute_elements_partial thr v [0, 3, 6, 4, 7, 2, 1, 5, 8] hv3 (by rw [hv2]; simp)
    (by rw [hv2]; exact (by decide : [0, 3, 6, 4, 7, 2, 1, 5, 8].Perm (List.range 9)))
  obtain ⟨f1, f2, f3, f4⟩ := hp2
  rw [hv2] at f1 f3 f4
  simp only [List.map, List.getD_cons_succ, List.getD_cons_zero] at f1
  set w := permute thr v [0, 3, 6, 4, 7, 2, 1, 5, 8] with hw
  -- final view
  obtain ⟨z, hz1, hz2, hz3, hz4⟩ := view_ok w [(2 * a) * (2 * b), 3 * 2 * 14 * 14] f2
    (by rw [f1]; simp [numel]; ring)
  refine ⟨z, ?_, hz2, ?_⟩
  · unfold patches
    simp only [← hchw, hun, hu1, hr1', hr2', hs, Option.bind_eq_bind, Option.bind_some, List.getD_cons_succ,
      List.getD_cons_zero, h28a, h28b, h2a, h2b]
    have : (2 : Nat) / 2 = 1 := rfl
    rw [this, hv1]
    simp only [Option.bind_some, ← hw, Nat.one_mul]
    exact hz1
  · intro i j jh jw c k y x hi hj hjh hjw hcc hk hy hx
    have b9 : InB [1, 2, 3, a, 2, 14, b, 2, 14] [0, k, c, i, jh, y, j, jw, x] :=
      inB9.mpr ⟨by omega, hk, hcc, hi, hjh, hy, hj, hjw, hx⟩
    obtain ⟨g1, g2⟩ := f4 _ b9
    simp only [List.map, List.getD_cons_succ, List.getD_cons_zero] at g1 g2
    have hrow : ((i * b + j) * 2 + jh) * 2 + jw < (2 * a) * (2 * b) := by
      have h1 : (i + 1) * b ≤ a * b := Nat.mul_le_mul_right _ hi
      rw [Nat.add_mul] at h1
      have h2 : (2 * a) * (2 * b) = 4 * (a * b) := by ring
      omega
    have hcol : ((c * 2 + k) * 14 + y) * 14 + x < 3 * 2 * 14 * 14 := by omega
    rw [hz4 [((i * b + j) * 2 + jh) * 2 + jw, ((c * 2 + k) * 14 + y) * 14 + x] [0, i, j, jh, jw, c, k, y, x]
      (by simp only [InB]; exact ⟨hrow, hcol, trivial⟩) g1 (by rw [f1]; simp only [lin, numel]; ring), g2]
    have hY : (2 * i + jh) * 14 + y < 28 * a := by omega
    have hX : (2 * j + jw) * 14 + x < 28 * b := by omega
    rw [hv4 [0, k, c, i, jh, y, j, jw, x] [k, c, (2 * i + jh) * 14 + y, (2 * j + jw) * 14 + x] b9
      (by rw [hr2']; simp only [InB]; exact ⟨hk, hcc, hY, hX, trivial⟩)
      (by rw [hr2']; simp only [lin, numel]; ring)]
    have hq := hr4 [] 0 [c, (2 * i + jh) * 14 + y, (2 * j + jw) * 14 + x] k rfl
      (by rw [hu2]; simp only [List.nil_append, InB]; exact ⟨by omega, hcc, hY, hX, trivial⟩) hk
    simp only [List.nil_append, Nat.zero_mul, Nat.zero_add] at hq
    rw [hq.2, hu4 _ [c, (2 * i + jh) * 14 + y, (2 * j + jw) * 14 + x]
      (by simp only [InB]; exact ⟨by omega, hcc, hY, hX, trivial⟩)
      (by rw [hn1]; simp only [InB]; exact ⟨hcc, hY, hX, trivial⟩)
      (by rw [hn1]; simp only [lin, numel]; ring)]
    have bimg : InB [28 * a, 28 * b, 3] [(2 * i + jh) * 14 + y, (2 * j + jw) * 14 + x, c] :=
      inB3.mpr ⟨hY, hX, hcc⟩
    have hi3 := e4 _ bimg
    simp only [List.map, List.getD_cons_succ, List.getD_cons_zero] at hi3
    rw [normalise_elem norm chw (by rw [e1]; exact inB3.mpr ⟨hcc, hY, hX⟩), hi3.2]

/-- The position written for row `pos`. -/
theorem flatPos_eq {m h w b jh jw : Nat} (hb : b < (h / m) * (w / m)) (hjh : jh < m) (hjw : jw < m) :
    flatPos m h w (b * (m * m) + jh * m + jw) =
      ((b / (w / m)) * m + jh, (b % (w / m)) * m + jw) := by
  have key : ∀ e ∈ hwWrites m h w, e.1 = b * (m * m) + jh * m + jw →
      e.2 = ((b / (w / m)) * m + jh, (b % (w / m)) * m + jw) := by
    intro e he h1
    simp only [hwWrites, List.mem_flatMap, List.mem_map, List.mem_range] at he
    obtain ⟨b', hb', jh', hjh', jw', hjw', rfl⟩ := he
    simp only at h1
    have i1 : InB [(h / m) * (w / m), m, m] [b', jh', jw'] := inB3.mpr ⟨hb', hjh', hjw'⟩
    have i2 : InB [(h / m) * (w / m), m, m] [b, jh, jw] := inB3.mpr ⟨hb, hjh, hjw⟩
    have := lin_inj i1 i2 (by simp only [lin, numel]; simp only [Nat.mul_one, Nat.add_zero]; omega)
    simp only [List.cons.injEq, and_true] at this
    obtain ⟨rfl, rfl, rfl⟩ := this
    rfl
  have hm : (b * (m * m) + jh * m + jw, ((b / (w / m)) * m + jh, (b % (w / m)) * m + jw)) ∈ hwWrites m h w := by
    simp only [hwWrites, List.mem_flatMap, List.mem_map, List.mem_range]
    exact ⟨b, hb, jh, hjh, jw, hjw, rfl⟩
  unfold flatPos
  have hne : ((hwWrites m h w).filter fun e => e.1 == b * (m * m) + jh * m + jw) ≠ [] := by
    intro hc
    have : (b * (m * m) + jh * m + jw, ((b / (w / m)) * m + jh, (b % (w / m)) * m + jw)) ∈
        (hwWrites m h w).filter fun e => e.1 == b * (m * m) + jh * m + jw := List.mem_filter.mpr ⟨hm, by simp⟩
    rw [hc] at this
    cases this
  rw [List.getLast?_eq_some_getLast hne]
  have hl := List.getLast_mem hne
  obtain ⟨l1, l2⟩ := List.mem_filter.mp hl
  rw [Option.map_some, Option.getD_some]
  exact key _ l1 (beq_iff_eq.mp l2)

theorem posIds_single (m h w r : Nat) (hr : r < h * w) :
    (posIds m [(1, h, w)])[r]? = some (flatPos m h w r) := by
  simp [posIds, hr]

theorem posIds_length (m t h w : Nat) : (posIds m [(t, h, w)]).length = t * (h * w) := by
  simp [posIds]

/-- Row `4q + s` of the table. -/
theorem posIds_block (a b q s : Nat) (hq : q < a * b) (hs : s < 4) :
    (posIds 2 [(1, 2 * a, 2 * b)])[4 * q + s]? = some (2 * (q / b) + s / 2, 2 * (q % b) + s % 2) := by
  have e : (2 * a) * (2 * b) = 4 * (a * b) := by ring
  rw [posIds_single 2 _ _ _ (by omega)]
  have h2a : 2 * a / 2 = a := by omega
  have h2b : 2 * b / 2 = b := by omega
  have hf := flatPos_eq (m := 2) (h := 2 * a) (w := 2 * b) (b := q) (jh := s / 2) (jw := s % 2)
    (by rw [h2a, h2b]; exact hq) (by omega) (by omega)
  have h4 : q * (2 * 2) + s / 2 * 2 + s % 2 = 4 * q + s := by omega
  rw [h4, h2b] at hf
  rw [hf, Nat.mul_comm (q / b) 2, Nat.mul_comm (q % b) 2]

/-! ### C112 -/

/-- C112. For every resized image (height `28 a`, width `28 b`) and every normalisation: the preprocessor
returns one row per `14 × 14` patch; row `r` of the coordinate table names a patch of the image, and row `r` of
the patch matrix holds exactly the pixels of that patch - channel, frame, row, column, each frame a copy of the
image - normalised by their channel. -/
theorem C112_patches (thr : Option Nat) (norm : Nat → α → β) (img : Tens α) (a b : Nat)
    (hs : img.shape = [28 * a, 28 * b, 3]) (hc : img.Contig) :
    ∃ r, patches thr norm img = some r ∧ r.shape = [4 * (a * b), 1176] ∧
      (posIds 2 [gridTHW img]).length = 4 * (a * b) ∧
      ∀ n, n < 4 * (a * b) → ∃ gh gw, (posIds 2 [gridTHW img])[n]? = some (gh, gw) ∧
        gh < 2 * a ∧ gw < 2 * b ∧
        ∀ c k y x, c < 3 → k < 2 → y < 14 → x < 14 →
          r.elem [n, ((c * 2 + k) * 14 + y) * 14 + x] =
            (img.elem [gh * 14 + y, gw * 14 + x, c]).map (norm c) := by
  obtain ⟨r, h1, h2, h3⟩ := patches_elem thr norm img a b hs hc
  have e : (2 * a) * (2 * b) = 4 * (a * b) := by ring
  have hg : gridTHW img = (1, 2 * a, 2 * b) := by
    unfold gridTHW; rw [hs]; simp only [List.getD_cons_zero, List.getD_cons_succ]
    rw [show 28 * a / 14 = 2 * a by omega, show 28 * b / 14 = 2 * b by omega]
  refine ⟨r, h1, by rw [h2, e], by rw [hg, posIds_length]; omega, fun n hn => ?_⟩
  have hq : n / 4 < a * b := by omega
  have hb : 0 < b := by
    rcases Nat.eq_zero_or_pos b with rfl | h
    · simp at hn
    · exact h
  have hqd : n / 4 / b < a := Nat.div_lt_of_lt_mul (by rw [Nat.mul_comm]; exact hq)
  have hqm : n / 4 % b < b := Nat.mod_lt _ hb
  have hn4 : 4 * (n / 4) + n % 4 = n := by omega
  have hp := posIds_block a b (n / 4) (n % 4) hq (by omega)
  rw [hn4, ← hg] at hp
  refine ⟨_, _, hp, by omega, by omega, fun c k y x hc hk hy hx => ?_⟩
  rw [← h3 (n / 4 / b) (n / 4 % b) (n % 4 / 2) (n % 4 % 2) c k y x hqd hqm (by omega) (by omega) hc hk hy hx]
  have hdm : n / 4 / b * b + n / 4 % b = n / 4 := by
    rw [Nat.mul_comm]; exact Nat.div_add_mod _ _
  rw [hdm, show (n / 4 * 2 + n % 4 / 2) * 2 + n % 4 % 2 = n by omega]

/-- C112. Every patch of the image has exactly one row. -/
theorem C112_each_once (a b gh gw : Nat) (h1 : gh < 2 * a) (h2 : gw < 2 * b) :
    ∃! n : Nat, (posIds 2 [(1, 2 * a, 2 * b)])[n]? = some (gh, gw) := by
  have hq : gh / 2 * b + gw / 2 < a * b := by
    have : (gh / 2 + 1) * b ≤ a * b := Nat.mul_le_mul_right _ (by omega)
    rw [Nat.add_mul] at this; omega
  have hb : 0 < b := by omega
  have hd : (gh / 2 * b + gw / 2) / b = gh / 2 := by
    rw [Nat.add_comm, Nat.add_mul_div_right _ _ hb, Nat.div_eq_of_lt (by omega)]; omega
  have hm : (gh / 2 * b + gw / 2) % b = gw / 2 := by
    rw [Nat.add_comm, Nat.add_mul_mod_self_right, Nat.mod_eq_of_lt (by omega)]
  refine ⟨4 * (gh / 2 * b + gw / 2) + (2 * (gh % 2) + gw % 2), ?_, ?_⟩
  · simp only
    rw [posIds_block a b _ _ hq (by omega), hd, hm]
    simp only [Option.some.injEq, Prod.mk.injEq]
    omega
  · intro n hn
    have hlt : n < 4 * (a * b) := by
      have := (List.getElem?_eq_some_iff.mp hn).1
      rw [posIds_length] at this
      have e : (2 * a) * (2 * b) = 4 * (a * b) := by ring
      omega
    have hp := posIds_block a b (n / 4) (n % 4) (by omega) (by omega)
    rw [show 4 * (n / 4) + n % 4 = n by omega, hn] at hp
    simp only [Option.some.injEq, Prod.mk.injEq] at hp
    obtain ⟨p1, p2⟩ := hp
    have hdm : n / 4 / b * b + n / 4 % b = n / 4 := by
      rw [Nat.mul_comm]; exact Nat.div_add_mod _ _
    have e1 : gh / 2 = n / 4 / b := by omega
    have e2 : gw / 2 = n / 4 % b := by omega
    rw [e1, e2, hdm]
    omega

/-- C112. The patch merger groups four consecutive rows (`view({-1, 4 * dim})`): they are the four patches of one
`2 × 2` block, and the blocks come in row-major order. -/
theorem C112_merge_blocks (a b q s : Nat) (hq : q < a * b) (hs : s < 4) :
    ∃ gh gw, (posIds 2 [(1, 2 * a, 2 * b)])[4 * q + s]? = some (gh, gw) ∧ gh / 2 = q / b ∧ gw / 2 = q % b ∧
      gh % 2 = s / 2 ∧ gw % 2 = s % 2 :=
  ⟨_, _, posIds_block a b q s hq hs, by omega, by omega, by omega, by omega⟩

/-- C112. The prompt holds one image token per merged block: the ids around the pad are untouched and the pad
becomes a run of `a * b` pads. -/
theorem C112_image_tokens (pad : Int) (pre post : List Int) (a b : Nat) (ha : 0 < a) (hb : 0 < b) (hp : pad ∉ pre) :
    expandPads pad (pre ++ pad :: post) (1, 2 * a, 2 * b) =
      some (pre ++ List.replicate (a * b) pad ++ post) := by
  have e : 1 * (2 * a) * (2 * b) / 4 = a * b := by
    rw [show 1 * (2 * a) * (2 * b) = 4 * (a * b) by ring]; omega
  have hpos : 0 < a * b := Nat.mul_pos ha hb
  have hi : (pre ++ pad :: post).idxOf pad = pre.length := by
    rw [List.idxOf_append_of_notMem hp]; simp
  unfold expandPads
  simp only [e, hi]
  rw [if_pos ⟨by simp, hpos⟩]
  have h1 : (pre ++ pad :: post).take (pre.length + 1) = pre ++ [pad] := by
    simp [List.take_append, List.take_of_length_le]
  have h2 : (pre ++ pad :: post).drop (pre.length + 1) = post := by
    simp [List.drop_append]
  rw [h1, h2]
  obtain ⟨n, hn⟩ : ∃ n, a * b = n + 1 := ⟨a * b - 1, by omega⟩
  rw [hn]
  simp [List.replicate_succ]

/-- C112. For one image the table is built - the bounds checks never fire - and row `n` holds the angles of the
row coordinate of patch `n` followed by those of its column coordinate. -/
theorem C112_rotary_angles [Mul β] [NatCast β] (freq : List β) (hf : freq ≠ []) (a b : Nat) (ha : 0 < a) (hb : 0 < b) :
    ∃ tab, rotAngles freq (4 * (a * b)) [(1, 2 * a, 2 * b)] = some tab ∧ tab.length = 4 * (a * b) ∧
      ∀ (n gh gw : Nat), (posIds 2 [(1, 2 * a, 2 * b)])[n]? = some (gh, gw) →
        tab[n]? = some (freq.map (fun f => (gh : β) * f) ++ freq.map (fun f => (gw : β) * f)) := by
  have hab : 0 < a * b := Nat.mul_pos ha hb
  have e : 1 * ((2 * a) * (2 * b)) = 4 * (a * b) := by ring
  have e' : 1 * (2 * a) * (2 * b) = 4 * (a * b) := by ring
  have hla : a ≤ a * b := Nat.le_mul_of_pos_right _ hb
  have hlb : b ≤ a * b := Nat.le_mul_of_pos_left _ ha
  have hbound : ∀ (n gh gw : Nat), (posIds 2 [(1, 2 * a, 2 * b)])[n]? = some (gh, gw) →
      gh < 4 * (a * b) ∧ gw < 4 * (a * b) := by
    intro n gh gw h
    have hlt : n < 4 * (a * b) := by
      have := (List.getElem?_eq_some_iff.mp h).1
      rw [posIds_length] at this; omega
    have hp := posIds_block a b (n / 4) (n % 4) (by omega) (by omega)
    rw [show 4 * (n / 4) + n % 4 = n by omega, h] at hp
    simp only [Option.some.injEq, Prod.mk.injEq] at hp
    have h1 : n / 4 / b < a := Nat.div_lt_of_lt_mul (by rw [Nat.mul_comm]; omega)
    have h2 : n / 4 % b < b := Nat.mod_lt _ hb
    omega
  have hall : (posIds 2 [(1, 2 * a, 2 * b)]).all (fun p => p.1 < 4 * (a * b) && p.2 < 4 * (a * b)) = true := by
    rw [List.all_eq_true]
    intro p hp
    obtain ⟨n, hn, he⟩ := List.getElem_of_mem hp
    have := hbound n p.1 p.2 (by rw [List.getElem?_eq_getElem hn, he])
    simpa using this
  have hlen := posIds_length 2 1 (2 * a) (2 * b)
  rw [e] at hlen
  have hfl : freq.length ≠ 0 := by simpa using hf
  refine ⟨(posIds 2 [(1, 2 * a, 2 * b)]).map fun p =>
    ((List.range (4 * (a * b))).map fun (i : Nat) => freq.map fun f => (i : β) * f).getD p.1 [] ++
    ((List.range (4 * (a * b))).map fun (i : Nat) => freq.map fun f => (i : β) * f).getD p.2 [], ?_, by simp [hlen], ?_⟩
  · unfold rotAngles rotFull
    rw [if_pos (by omega)]
    simp only [Option.bind_eq_bind, Option.bind_some, List.headD_cons]
    unfold rotGather
    simp only [List.length_map, List.length_range]
    rw [if_neg (by rw [hlen]; omega), if_neg (by rw [hlen]; simp only [e']; simp), if_pos hall]
  · intro n gh gw h
    obtain ⟨h1, h2⟩ := hbound n gh gw h
    rw [List.getElem?_map, h]
    simp only [Option.map_some]
    rw [List.getD_eq_getElem _ _ (by simpa using h1), List.getD_eq_getElem _ _ (by simpa using h2)]
    simp

/-- C112 is violated for more than one image: `makeVisualRotaryPosEmb` compares the grid of the first image with
the rows of all of them, and ends the process. -/
theorem C112_two_images_violated [Mul β] [NatCast β] (freq : List β) (vLen : Nat) (g g' : Nat × Nat × Nat)
    (gs : List (Nat × Nat × Nat)) (hg : 0 < g'.1 * (g'.2.1 * g'.2.2)) : rotAngles freq vLen (g :: g' :: gs) = none := by
  have hlen : (posIds 2 (g :: g' :: gs)).length = g.1 * (g.2.1 * g.2.2) + (g'.1 * (g'.2.1 * g'.2.2) + (posIds 2 gs).length) := by
    have h1 := posIds_length 2 g.1 g.2.1 g.2.2
    have h2 := posIds_length 2 g'.1 g'.2.1 g'.2.2
    have h3 : posIds 2 (g :: g' :: gs) = posIds 2 [(g.1, g.2.1, g.2.2)] ++ (posIds 2 [(g'.1, g'.2.1, g'.2.2)] ++ posIds 2 gs) := by
      simp [posIds]
    rw [h3, List.length_append, List.length_append, h1, h2]
  unfold rotAngles rotFull
  split_ifs with h
  · simp only [Option.bind_eq_bind, Option.bind_some, List.headD_cons]
    unfold rotGather
    have hne : g.1 * g.2.1 * g.2.2 ≠ (posIds 2 (g :: g' :: gs)).length := by
      rw [hlen, Nat.mul_assoc]; omega
    rw [if_pos hne]
    split_ifs <;> rfl
  · rfl

/-- A concrete image: 56 × 84 pixels, each pixel holding its own position. -/
example : ∃ r, patches (none) (fun c v => (c, v)) (fresh [56, 84, 3] (fun k => some k)) = some r ∧
    r.shape = [24, 1176] ∧ (posIds 2 [(1, 4, 6)])[13]? = some (2, 1) ∧
    r.elem [13, ((1 * 2 + 1) * 14 + 3) * 14 + 5] = some (1, ((2 * 14 + 3) * 84 + (1 * 14 + 5)) * 3 + 1) := by
  obtain ⟨r, h1, h2, h3, h4⟩ := C112_patches none (fun c v => (c, v)) (fresh [56, 84, 3] (fun k => some k)) 2 3 rfl rfl
  refine ⟨r, h1, h2, by decide +kernel, ?_⟩
  obtain ⟨gh, gw, g1, -, -, g4⟩ := h4 13 (by omega)
  have : (posIds 2 [gridTHW (fresh [56, 84, 3] (fun k => some k))])[13]? = some (2, 1) := by decide +kernel
  rw [this] at g1
  simp only [Option.some.injEq, Prod.mk.injEq] at g1
  obtain ⟨rfl, rfl⟩ := g1
  rw [g4 1 1 3 5 (by omega) (by omega) (by omega) (by omega)]
  rfl

example : expandPads 7 [1, 2, 7, 3] (1, 4, 6) = some [1, 2, 7, 7, 7, 7, 7, 7, 3] := by decide +kernel

example : rotAngles (β := Nat) [1, 10] 8 [(1, 2, 4)] =
    some [[0, 0, 0, 0], [0, 0, 1, 10], [1, 10, 0, 0], [1, 10, 1, 10],
      [0, 0, 2, 20], [0, 0, 3, 30], [1, 10, 2, 20], [1, 10, 3, 30]] := by decide +kernel

end Verif.Vl
