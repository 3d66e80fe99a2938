import Verif.Vit.Lemmas

namespace Verif.Vit

open Verif.Vpos (Grid patches patchCount Pos)

/-- The patches of a batch of images: the image's grid, frame, row and column. -/
def batchOrder (m : Nat) (gs : List Grid) : List (Grid × Nat × Nat × Nat) := gs.flatMap fun g => (order m g).map fun q => (g, q)

/-- **C189**: the pairs of positions of the two-dimensional rotary embedding are the rows and columns of the patches, in the order of the
patches. -/
theorem C189_rotary (m : Nat) (gs : List Grid) (hm : 0 < m) (hd : ∀ g ∈ gs, m ∣ g.h ∧ m ∣ g.w) :
    rotPos m gs = some ((batchOrder m gs).map fun q => (q.2.2.1, q.2.2.2)) := by
  have : gs.mapM (fun g : Grid => (rotPosIds g.h g.w m).map fun base => if g.t = 1 then base else (List.replicate g.t base).flatten) =
      some (gs.map fun g => (order m g).map fun q => (q.2.1, q.2.2)) := by
    refine mapM_some _ _ _ fun g hg => ?_
    rw [rotPosIds_eq g.h g.w m hm (hd g hg).1 (hd g hg).2, order_eq]
    simp only [Option.map_some, List.map_flatMap, List.map_map]
    congr 1
    have e : (List.replicate g.t (order1 m g.h g.w)).flatten = (List.range g.t).flatMap fun _ => (order1 m g.h g.w).map fun p => (p.1, p.2) := by
      simp [List.flatMap, List.map_const']
    split_ifs with ht
    · simp [ht, Function.comp_def]
    · rw [e]; rfl
  rw [rotPos, this, batchOrder]
  simp [List.flatMap, List.map_flatten, List.map_map, Function.comp_def]

/-- **C189**: an image with rows or columns that the merge size does not divide raises an error. -/
theorem C189_raise (m : Nat) (gs : List Grid) (g : Grid) (hg : g ∈ gs) (h : m = 0 ∨ 0 < g.h * g.w ∧ ¬ (m ∣ g.h ∧ m ∣ g.w)) : rotPos m gs = none := by
  have : rotPosIds g.h g.w m = none := by
    rw [rotPosIds]
    split_ifs with h0 h1
    · rfl
    · exfalso
      rcases h with h | ⟨hp, h⟩
      · exact h0 h
      · rw [Nat.mul_assoc (g.h / m * m)] at h1
        have a := Nat.div_mul_le_self g.h m
        have b := Nat.div_mul_le_self g.w m
        have hh : 0 < g.h := Nat.pos_of_mul_pos_right hp
        have hw : 0 < g.w := Nat.pos_of_mul_pos_left hp
        refine h ⟨Nat.dvd_of_mod_eq_zero ?_, Nat.dvd_of_mod_eq_zero ?_⟩
        · by_contra hne
          have : g.h / m * m < g.h := by have := Nat.div_add_mod' g.h m; omega
          have := Nat.mul_lt_mul_of_lt_of_le this b hw
          omega
        · by_contra hne
          have : g.w / m * m < g.w := by have := Nat.div_add_mod' g.w m; omega
          have := Nat.mul_lt_mul_of_le_of_lt a this hh
          omega
    · rfl
  rw [rotPos, mapM_none _ _ g hg (by rw [this]; rfl)]; rfl

/-- **C189**: the order lists every patch of the image exactly once. -/
theorem C189_once (m : Nat) (g : Grid) (hm : 0 < m) (hd : m ∣ g.h ∧ m ∣ g.w) :
    (order m g).Nodup ∧ (∀ q, q ∈ order m g ↔ q.1 < g.t ∧ q.2.1 < g.h ∧ q.2.2 < g.w) := by
  have hmem : ∀ q, q ∈ order m g ↔ q.1 < g.t ∧ q.2.1 < g.h ∧ q.2.2 < g.w := by
    intro q
    rw [order_eq, List.mem_flatMap]
    simp only [List.mem_range, List.mem_map]
    constructor
    · rintro ⟨f, hf, p, hp, rfl⟩; exact ⟨hf, (mem_order1 m _ _ hm hd.1 hd.2 p).1 hp⟩
    · rintro ⟨h1, h2⟩; exact ⟨q.1, h1, q.2, (mem_order1 m _ _ hm hd.1 hd.2 q.2).2 h2, rfl⟩
  refine ⟨?_, hmem⟩
  have n1 : (order1 m g.h g.w).Nodup := by
    rw [order1, List.nodup_flatMap]
    have hb : ∀ a c q, q ∈ block m a c → q.1 / m = a ∧ q.2 / m = c := by
      intro a c q hq
      simp only [block, List.mem_flatMap, List.mem_range, List.mem_map] at hq
      obtain ⟨b, hb, d, hd, rfl⟩ := hq
      exact ⟨(dm hb).1, (dm hd).1⟩
    refine ⟨fun a _ => ?_, ?_⟩
    · rw [List.nodup_flatMap]
      refine ⟨fun c _ => ?_, ?_⟩
      · rw [block, List.nodup_flatMap]
        refine ⟨fun b _ => List.Nodup.map (fun x y h => by simpa using h) List.nodup_range, ?_⟩
        refine List.nodup_range.imp fun {b b'} hne q h1 h2 => ?_
        obtain ⟨d, -, rfl⟩ := List.mem_map.1 h1
        obtain ⟨d', -, e⟩ := List.mem_map.1 h2
        simp only [Prod.mk.injEq] at e
        exact hne (by omega)
      · refine List.nodup_range.imp fun {c c'} hne => ?_
        intro q h1 h2
        exact hne ((hb _ _ _ h1).2.symm.trans (hb _ _ _ h2).2)
    · refine List.nodup_range.imp fun {a a'} hne q h1 h2 => ?_
      obtain ⟨c, -, h1⟩ := List.mem_flatMap.1 h1
      obtain ⟨c', -, h2⟩ := List.mem_flatMap.1 h2
      exact hne ((hb _ _ _ h1).1.symm.trans (hb _ _ _ h2).1)
  rw [order_eq, List.nodup_flatMap]
  refine ⟨fun f _ => n1.map fun x y h => by simpa using h, List.nodup_range.imp fun {f f'} hne q h1 h2 => ?_⟩
  obtain ⟨p, -, rfl⟩ := List.mem_map.1 h1
  obtain ⟨p', -, e⟩ := List.mem_map.1 h2
  simp only [Prod.mk.injEq] at e
  exact hne e.1.symm

theorem length_block (m a c : Nat) : (block m a c).length = m * m := by simp [block]

theorem groups_flatMap {α β : Type} (m : Nat) (hm : 0 < m) (l : List α) (F : α → List β) (hF : ∀ a, (F a).length = m * m) :
    groups m (l.flatMap F) = l.map F := by
  have hp : 0 < m * m := Nat.mul_pos hm hm
  induction l with
  | nil => simp [groups]
  | cons a l ih =>
    have hl : ((a :: l).flatMap F).length = m * m + (l.flatMap F).length := by simp [hF]
    rw [groups, hl, show (m * m + (l.flatMap F).length) / (m * m) = (l.flatMap F).length / (m * m) + 1 by rw [Nat.add_div_left _ hp],
      List.range_succ_eq_map, List.map_cons, List.map_map, List.map_cons, ← ih, groups]
    congr 1
    · simp [List.take_append, hF]
    · refine List.map_congr_left fun k _ => ?_
      simp only [Function.comp, List.flatMap_cons]
      rw [show k.succ * (m * m) = (F a).length + k * (m * m) by rw [hF, Nat.succ_mul]; omega, List.drop_length_add_append]

/-- **C189**: the merger joins exactly the patches of one block of one frame of one image; the blocks come frame after frame and row
after row, which is the order of the image's tokens in the prompt and of their positions (C185). -/
theorem C189_merge (m : Nat) (gs : List Grid) (hm : 0 < m) :
    groups m (batchOrder m gs) = (gs.flatMap fun g => (blocks m g.t g.h g.w).map fun q => (g, q)).map
      (fun q => (block m q.2.2.1 q.2.2.2).map fun p => (q.1, q.2.1, p)) ∧
    ∀ g p, patches .vl m g p = (blocks m g.t g.h g.w).map fun q => ⟨p + q.1, p + q.2.1, p + q.2.2⟩ := by
  constructor
  · rw [← groups_flatMap m hm]
    · congr 1
      simp only [batchOrder, order, List.map_flatMap, List.flatMap_assoc, List.flatMap_map, List.map_map]
      rfl
    · intro q; simp [length_block]
  · intro g p
    simp only [patches, blocks, List.map_flatMap, List.map_map]
    rfl

/-- **C190**: the position embedding of every patch of every frame is the bilinear interpolation of the table at the place of its row and
column; no index leaves the table. -/
theorem C190_interpolation (side : Nat) (E : Nat → ℚ) (m : Nat) (gs : List Grid) (hs : 0 < side) (hm : 0 < m) (hd : ∀ g ∈ gs, m ∣ g.h ∧ m ∣ g.w) :
    posEmb side E m gs = some ((batchOrder m gs).map fun q => bilinear side E (place side q.1.h q.2.2.1) (place side q.1.w q.2.2.2)) := by
  have : gs.mapM (fun g : Grid => do let x ← imageEmb side E g.h g.w; tile x g.t g.h g.w m) =
      some (gs.map fun g => (order m g).map fun q => bilinear side E (place side g.h q.2.1) (place side g.w q.2.2)) := by
    refine mapM_some _ _ _ fun g hg => ?_
    rw [imageEmb_eq side E g.h g.w hs]
    simp only [Option.bind_eq_bind, Option.bind_some]
    rw [tile_eq _ g.t g.h g.w m hm (hd g hg).1 (hd g hg).2 (by simp), order_eq]
    simp only [List.map_flatMap, List.map_map]
    congr 1
    refine List.flatMap_congr fun f _ => List.map_congr_left fun p hp => ?_
    obtain ⟨h1, h2⟩ := (mem_order1 m _ _ hm (hd g hg).1 (hd g hg).2 p).1 hp
    rw [List.getD_eq_getElem _ _ (by simpa using lt_mul h2 h1)]
    simp only [List.getElem_map, List.getElem_range, Function.comp]
    rw [(dm h2).1, (dm h2).2]
  rw [posEmb, this, batchOrder]
  simp [List.flatMap, List.map_flatten, List.map_map, Function.comp_def]

theorem bilinear_bounds (side : Nat) (E : Nat → ℚ) (x y lo hi : ℚ) (hs : 0 < side) (h : ∀ k < side * side, lo ≤ E k ∧ E k ≤ hi) :
    lo ≤ bilinear side E x y ∧ bilinear side E x y ≤ hi := by
  have fx := frac_bounds x
  have fy := frac_bounds y
  unfold frac at fx fy
  have hc : ∀ i j, lo ≤ E (min i (side - 1) * side + min j (side - 1)) ∧ E (min i (side - 1) * side + min j (side - 1)) ≤ hi := fun i j =>
    h _ (lt_mul (by omega) (by omega))
  have mix : ∀ a b s : ℚ, lo ≤ a ∧ a ≤ hi → lo ≤ b ∧ b ≤ hi → 0 ≤ s ∧ s < 1 → lo ≤ a + s * (b - a) ∧ a + s * (b - a) ≤ hi := by
    rintro a b s ⟨a0, a1⟩ ⟨b0, b1⟩ ⟨s0, s1⟩
    constructor <;> nlinarith
  exact mix _ _ _ (mix _ _ _ (hc _ _) (hc _ _) fy) (mix _ _ _ (hc _ _) (hc _ _) fy) fx

/-- **C190**: the embedding never leaves the range of the table. -/
theorem C190_bounds (side : Nat) (E : Nat → ℚ) (m : Nat) (gs : List Grid) (hs : 0 < side) (hm : 0 < m) (hd : ∀ g ∈ gs, m ∣ g.h ∧ m ∣ g.w)
    (lo hi : ℚ) (h : ∀ k < side * side, lo ≤ E k ∧ E k ≤ hi) :
    ∃ ys, posEmb side E m gs = some ys ∧ ∀ v ∈ ys, lo ≤ v ∧ v ≤ hi := by
  refine ⟨_, C190_interpolation side E m gs hs hm hd, fun v hv => ?_⟩
  obtain ⟨q, -, rfl⟩ := List.mem_map.1 hv
  exact bilinear_bounds side E _ _ lo hi hs h

/-- **C190**: an image as large as the table gets the table itself. -/
theorem C190_identity (side : Nat) (E : Nat → ℚ) (m t : Nat) (hs : 0 < side) (hm : 0 < m) (hd : m ∣ side) :
    posEmb side E m [⟨t, side, side⟩] = some ((order m ⟨t, side, side⟩).map fun q => E (q.2.1 * side + q.2.2)) := by
  rw [C190_interpolation side E m _ hs hm (by simpa using hd), batchOrder]
  simp only [List.flatMap_cons, List.flatMap_nil, List.append_nil, List.map_map]
  congr 1
  refine List.map_congr_left fun q hq => ?_
  obtain ⟨-, h1, h2⟩ := ((C189_once m ⟨t, side, side⟩ hm ⟨hd, hd⟩).2 q).1 hq
  dsimp only at h1 h2
  have hp : ∀ i < side, place side side i = (i : ℚ) := by
    intro i hi
    rw [place]
    split_ifs with h
    · have : i = 0 := by omega
      simp [this]
    · have : ((side : ℚ) - 1) ≠ 0 := by
        have : (2 : ℚ) ≤ side := by exact_mod_cast (by omega : 2 ≤ side)
        intro h; linarith
      rw [mul_div_assoc, div_self this, mul_one]
  simp only [Function.comp, hp _ h1, hp _ h2, bilinear, Int.floor_natCast, Int.toNat_natCast, Int.cast_natCast, sub_self, zero_mul, add_zero]
  rw [show min q.2.1 (side - 1) = q.2.1 by omega, show min q.2.2 (side - 1) = q.2.2 by omega]

/-- **C190**: a table that grows linearly is reproduced at every size of the image: corners keep their values and the spacing is even. -/
theorem C190_linear (side : Nat) (α β γ : ℚ) (E : Nat → ℚ) (hE : ∀ i < side, ∀ j < side, E (i * side + j) = α + β * i + γ * j)
    (m : Nat) (gs : List Grid) (hs : 0 < side) (hm : 0 < m) (hd : ∀ g ∈ gs, m ∣ g.h ∧ m ∣ g.w) :
    posEmb side E m gs = some ((batchOrder m gs).map fun q => α + β * place side q.1.h q.2.2.1 + γ * place side q.1.w q.2.2.2) := by
  rw [C190_interpolation side E m gs hs hm hd]
  congr 1
  refine List.map_congr_left fun q hq => ?_
  simp only [batchOrder, List.mem_flatMap, List.mem_map] at hq
  obtain ⟨g, hg, q, hq, rfl⟩ := hq
  obtain ⟨-, h1, h2⟩ := ((C189_once m g hm (hd g hg)).2 q).1 hq
  dsimp only
  have key : ∀ x : ℚ, 0 ≤ x → x ≤ (side : ℚ) - 1 → ((min ⌊x⌋.toNat (side - 1) : Nat) : ℚ) = ⌊x⌋ ∧
      (x - ⌊x⌋) * (((min (⌊x⌋.toNat + 1) (side - 1) : Nat) : ℚ) - ((min ⌊x⌋.toNat (side - 1) : Nat) : ℚ)) = x - ⌊x⌋ := by
    intro x h0 h1
    obtain ⟨a0, a1⟩ := floor_lt side x h0 h1
    obtain ⟨i, hi⟩ := Int.eq_ofNat_of_zero_le a0
    have e1 : min ⌊x⌋.toNat (side - 1) = i := by omega
    rw [e1]
    refine ⟨by rw [hi]; simp, ?_⟩
    by_cases hc : i + 1 ≤ side - 1
    · rw [show min (⌊x⌋.toNat + 1) (side - 1) = i + 1 by omega]; push_cast; ring
    · have hxi : x = (⌊x⌋ : ℚ) := by
        refine le_antisymm (h1.trans ?_) (Int.floor_le x)
        rw [hi]
        have : (side : ℚ) = (i : ℚ) + 1 := by exact_mod_cast (by omega : side = i + 1)
        simp [this]
      have : x - (⌊x⌋ : ℚ) = 0 := by linarith
      rw [this]; ring
  have p1 := place_bounds side g.h _ hs h1
  have p2 := place_bounds side g.w _ hs h2
  generalize place side g.h q.2.1 = x at *
  generalize place side g.w q.2.2 = y at *
  obtain ⟨x1, x2⟩ := key x p1.1 p1.2
  obtain ⟨y1, y2⟩ := key y p2.1 p2.2
  simp only [bilinear]
  rw [hE _ (by omega) _ (by omega), hE _ (by omega) _ (by omega), hE _ (by omega) _ (by omega), hE _ (by omega) _ (by omega)]
  generalize ((min ⌊x⌋.toNat (side - 1) : Nat) : ℚ) = a at *
  generalize ((min (⌊x⌋.toNat + 1) (side - 1) : Nat) : ℚ) = a' at *
  generalize ((min ⌊y⌋.toNat (side - 1) : Nat) : ℚ) = b at *
  generalize ((min (⌊y⌋.toNat + 1) (side - 1) : Nat) : ℚ) = b' at *
  linear_combination β * x2 + β * x1 + γ * y2 + γ * y1

/-- **C190**: the places of the first and the last row or column are the ends of the table. -/
theorem C190_ends (side n : Nat) (hn : 2 ≤ n) : place side n 0 = 0 ∧ place side n (n - 1) = (side : ℚ) - 1 := by
  have h : ¬ n ≤ 1 := by omega
  refine ⟨by simp [place], ?_⟩
  rw [place, if_neg h, Nat.cast_sub (by omega), Nat.cast_one, mul_comm, mul_div_assoc, div_self, mul_one]
  have : (2 : ℚ) ≤ n := by exact_mod_cast hn
  intro h; linarith

/-! ## Frames as attention segments -/

/-- The frames of a batch. -/
def frames (gs : List Grid) : List (Grid × Nat) := gs.flatMap fun g => (List.range g.t).map fun f => (g, f)

theorem drop_flatMap {α β : Type} (l : List α) (F : α → List β) (s : Nat) :
    (l.flatMap F).drop (((l.map fun a => (F a).length).take s).sum) = (l.drop s).flatMap F := by
  induction l generalizing s with
  | nil => simp
  | cons a l ih =>
    cases s with
    | zero => simp
    | succ s =>
      simp only [List.map_cons, List.take_succ_cons, List.sum_cons, List.flatMap_cons, List.drop_succ_cons]
      rw [List.drop_length_add_append, ih]

theorem cu_get (gs : List Grid) (lens : List Nat) (hl : gs.flatMap (fun (g : Grid) => List.replicate g.t (g.h * g.w)) = lens) (s : Nat) (hs : s ≤ lens.length) :
    (cuSeqlens gs).getD s 0 = (lens.take s).sum := by
  simp only [cuSeqlens, hl]
  cases s with
  | zero => simp
  | succ s => rw [List.getD_cons_succ, List.getD_eq_getElem _ _ (by simp; omega)]; simp

/-- **C191**: the boundaries cut the patches of a batch into exactly its frames: segment `s` holds the patches of frame `s`, all of them and
nothing else, so that patches attend only within their frame; the last boundary is the number of patches. -/
theorem C191_segments (m : Nat) (gs : List Grid) (hm : 0 < m) (hd : ∀ g ∈ gs, m ∣ g.h ∧ m ∣ g.w) :
    (cuSeqlens gs).length = (frames gs).length + 1 ∧
    (cuSeqlens gs).getD (frames gs).length 0 = (batchOrder m gs).length ∧
    ∀ s (hs : s < (frames gs).length), (cuSeqlens gs).getD s 0 ≤ (cuSeqlens gs).getD (s + 1) 0 ∧
      ((batchOrder m gs).drop ((cuSeqlens gs).getD s 0)).take ((cuSeqlens gs).getD (s + 1) 0 - (cuSeqlens gs).getD s 0) =
        (batchOrder m [⟨1, (frames gs)[s].1.h, (frames gs)[s].1.w⟩]).map fun q => ((frames gs)[s].1, (frames gs)[s].2, q.2.2) := by
  let F : Grid × Nat → List (Grid × Nat × Nat × Nat) := fun q => (order1 m q.1.h q.1.w).map fun p => (q.1, q.2, p)
  have hB : batchOrder m gs = (frames gs).flatMap F := by
    simp only [batchOrder, frames, order_eq, List.map_flatMap, List.flatMap_assoc, List.flatMap_map, List.map_map, F]
    rfl
  have ho : ∀ h w, m ∣ h → m ∣ w → (order1 m h w).length = h * w := by
    rintro h w ⟨H, rfl⟩ ⟨W, rfl⟩
    simp [order1, length_block, Nat.mul_div_cancel_left _ hm]
    ring
  have hF : (frames gs).map (fun q => (F q).length) = gs.flatMap (fun (g : Grid) => List.replicate g.t (g.h * g.w)) := by
    simp only [frames, List.map_flatMap, List.map_map, F]
    refine List.flatMap_congr fun g hg => ?_
    have := ho g.h g.w (hd g hg).1 (hd g hg).2
    simp [Function.comp_def, this, List.map_const']
  have hlen : (gs.flatMap (fun (g : Grid) => List.replicate g.t (g.h * g.w))).length = (frames gs).length := by rw [← hF]; simp
  have hcu := cu_get gs _ rfl
  rw [hlen] at hcu
  rw [← hF] at hcu
  refine ⟨by rw [cuSeqlens]; rw [List.length_cons, List.length_map, List.length_range, hlen], ?_, fun s hs => ?_⟩
  · rw [hcu _ (le_refl _), hB, List.take_of_length_le (by simp), List.length_flatMap]
  · rw [hcu s (by omega), hcu (s + 1) (by omega)]
    have e : (((frames gs).map fun q => (F q).length).take (s + 1)).sum = (((frames gs).map fun q => (F q).length).take s).sum + (F (frames gs)[s]).length := by
      rw [List.take_succ_eq_append_getElem (by simpa using hs)]
      simp
    rw [e]
    refine ⟨by omega, ?_⟩
    rw [Nat.add_sub_cancel_left, hB, drop_flatMap, List.drop_eq_getElem_cons hs, List.flatMap_cons, List.take_left]
    simp [F, batchOrder, order_eq, Function.comp_def]

/-- The hypotheses are met: two frames of 4 by 6 patches, an image of 2 by 2. -/
example : ∀ g ∈ [(⟨2, 4, 6⟩ : Grid), ⟨1, 2, 2⟩], 2 ∣ g.h ∧ 2 ∣ g.w := by decide

example : rotPos 2 [⟨1, 2, 4⟩] = some [(0, 0), (0, 1), (1, 0), (1, 1), (0, 2), (0, 3), (1, 2), (1, 3)] ∧ cuSeqlens [⟨2, 4, 6⟩, ⟨1, 2, 2⟩] = [0, 24, 48, 52] := by
  decide

end Verif.Vit
