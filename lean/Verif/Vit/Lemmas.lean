import Verif.Vit.Spec
import Mathlib.Algebra.Order.Floor.Ring
import Mathlib.Tactic.FieldSimp
import Mathlib.Tactic.LinearCombination

namespace Verif.Vit

open Verif.Vpos (Grid range_mul)

theorem dm {q n r : Nat} (h : r < n) : (q * n + r) / n = q ∧ (q * n + r) % n = r := by
  constructor
  · rw [Nat.add_comm, Nat.add_mul_div_right _ _ (by omega), Nat.div_eq_of_lt h]; omega
  · rw [Nat.add_comm, Nat.add_mul_mod_self_right, Nat.mod_eq_of_lt h]

theorem lt_mul {q n r k : Nat} (h : r < n) (hq : q < k) : q * n + r < k * n := by
  have : (q + 1) * n ≤ k * n := Nat.mul_le_mul_right _ hq
  rw [Nat.succ_mul] at this; omega

/-- The four digits of an index. -/
theorem digits4 {α : Type} (H W m : Nat) (F : Nat → Nat → Nat → Nat → α) :
    (List.range (H * (W * (m * m)))).map (fun k => F (k / (W * (m * m))) (k / (m * m) % W) (k / m % m) (k % m)) =
      (List.range H).flatMap fun a => (List.range W).flatMap fun c => (List.range m).flatMap fun b => (List.range m).map fun d => F a c b d := by
  rw [range_mul]
  refine List.flatMap_congr fun a _ => ?_
  rw [range_mul]
  refine List.flatMap_congr fun c hc => ?_
  rw [range_mul]
  refine List.flatMap_congr fun b hb => List.map_congr_left fun d hd => ?_
  have hc := List.mem_range.1 hc
  have hb := List.mem_range.1 hb
  have hd := List.mem_range.1 hd
  have hbd := lt_mul hd hb
  have hcbd := lt_mul hbd hc
  have e1 := (dm (q := a) hcbd).1
  have e2 : (a * (W * (m * m)) + (c * (m * m) + (b * m + d))) / (m * m) = a * W + c := by
    rw [show a * (W * (m * m)) + (c * (m * m) + (b * m + d)) = (a * W + c) * (m * m) + (b * m + d) by ring]; exact (dm hbd).1
  have e3 : a * (W * (m * m)) + (c * (m * m) + (b * m + d)) = ((a * W + c) * m + b) * m + d := by ring
  rw [e1, e2, (dm hc).2, e3, (dm hd).1, (dm hd).2, (dm hb).2]

theorem digits5 {α : Type} (t H W m : Nat) (F : Nat → Nat → Nat → Nat → Nat → α) :
    (List.range (t * (H * (W * (m * m))))).map (fun k => F (k / (H * (W * (m * m)))) (k / (W * (m * m)) % H) (k / (m * m) % W) (k / m % m) (k % m)) =
      (List.range t).flatMap fun f => (List.range H).flatMap fun a => (List.range W).flatMap fun c => (List.range m).flatMap fun b =>
        (List.range m).map fun d => F f a c b d := by
  rw [range_mul]
  refine List.flatMap_congr fun f _ => ?_
  rw [← digits4]
  refine List.map_congr_left fun k hk => ?_
  have hk := List.mem_range.1 hk
  have e1 := (dm (q := f) hk).1
  have hm : 0 < m * m := Nat.pos_of_ne_zero fun h => by rw [h] at hk; simp at hk
  have hm' : 0 < m := Nat.pos_of_mul_pos_left hm
  have hW : 0 < W * (m * m) := Nat.pos_of_ne_zero fun h => by rw [h] at hk; simp at hk
  have e2 : (f * (H * (W * (m * m))) + k) / (W * (m * m)) % H = k / (W * (m * m)) := by
    rw [show f * (H * (W * (m * m))) + k = k + (f * H) * (W * (m * m)) by ring, Nat.add_mul_div_right _ _ hW, Nat.add_mul_mod_self_right]
    exact Nat.mod_eq_of_lt ((Nat.div_lt_iff_lt_mul hW).2 hk)
  have e3 : (f * (H * (W * (m * m))) + k) / (m * m) % W = k / (m * m) % W := by
    rw [show f * (H * (W * (m * m))) + k = k + (f * H * W) * (m * m) by ring, Nat.add_mul_div_right _ _ hm, Nat.add_mul_mod_self_right]
  have e4 : (f * (H * (W * (m * m))) + k) / m % m = k / m % m := by
    rw [show f * (H * (W * (m * m))) + k = k + (f * H * W * m) * m by ring, Nat.add_mul_div_right _ _ hm', Nat.add_mul_mod_self_right]
  have e5 : (f * (H * (W * (m * m))) + k) % m = k % m := by
    rw [show f * (H * (W * (m * m))) + k = k + (f * H * W * m) * m by ring, Nat.add_mul_mod_self_right]
  rw [e1, e2, e3, e4, e5]

/-- The order of one frame. -/
def order1 (m h w : Nat) : List (Nat × Nat) := (List.range (h / m)).flatMap fun a => (List.range (w / m)).flatMap fun c => block m a c

theorem order_eq (m : Nat) (g : Grid) : order m g = (List.range g.t).flatMap fun f => (order1 m g.h g.w).map fun p => (f, p) := by
  simp only [order, blocks, order1, List.flatMap_assoc, List.map_flatMap, List.flatMap_map]

theorem mem_order1 (m h w : Nat) (hm : 0 < m) (hh : m ∣ h) (hw : m ∣ w) (p : Nat × Nat) : p ∈ order1 m h w ↔ p.1 < h ∧ p.2 < w := by
  obtain ⟨H, rfl⟩ := hh
  obtain ⟨W, rfl⟩ := hw
  rw [order1, Nat.mul_div_cancel_left _ hm, Nat.mul_div_cancel_left _ hm]
  simp only [block, List.mem_flatMap, List.mem_range, List.mem_map]
  constructor
  · rintro ⟨a, ha, c, hc, b, hb, d, hd, rfl⟩
    have := lt_mul hb ha
    have := lt_mul hd hc
    rw [Nat.mul_comm m H, Nat.mul_comm m W]
    exact ⟨by assumption, by assumption⟩
  · rintro ⟨h1, h2⟩
    refine ⟨p.1 / m, Nat.div_lt_of_lt_mul h1, p.2 / m, Nat.div_lt_of_lt_mul h2, p.1 % m, Nat.mod_lt _ hm, p.2 % m, Nat.mod_lt _ hm, ?_⟩
    rw [Nat.div_add_mod', Nat.div_add_mod']

/-- A function of the row-major index, permuted, is the function along the order. -/
theorem order1_map {α : Type} (m h w : Nat) (hm : 0 < m) (hh : m ∣ h) (hw : m ∣ w) (x : List α) (d0 : α) (F : Nat → Nat → α)
    (hx : ∀ r < h, ∀ c < w, x.getD (r * w + c) d0 = F r c) :
    permute4 x d0 (h / m) (w / m) m = (order1 m h w).map fun p => F p.1 p.2 := by
  rw [permute4]
  rw [digits4 (h / m) (w / m) m (fun a c b d => x.getD (((a * m + b) * (w / m) + c) * m + d) d0)]
  simp only [order1, block, List.map_flatMap, List.map_map]
  refine List.flatMap_congr fun a ha => List.flatMap_congr fun c hc => List.flatMap_congr fun b hb => List.map_congr_left fun d hd => ?_
  have ha := List.mem_range.1 ha
  have hc := List.mem_range.1 hc
  have hb := List.mem_range.1 hb
  have hd := List.mem_range.1 hd
  have eh := Nat.div_mul_cancel hh
  have ew := Nat.div_mul_cancel hw
  have h1 := lt_mul hb ha
  have h2 := lt_mul hd hc
  rw [eh] at h1
  rw [ew] at h2
  simp only [Function.comp]
  rw [← hx _ h1 _ h2]
  congr 1
  conv_rhs => rw [show (a * m + b) * w = (a * m + b) * (w / m * m) by rw [ew]]
  ring

theorem rotPosIds_eq (h w m : Nat) (hm : 0 < m) (hh : m ∣ h) (hw : m ∣ w) : rotPosIds h w m = some (order1 m h w) := by
  have e : h * w = h / m * m * (w / m) * m := by rw [Nat.mul_assoc (h / m * m), Nat.div_mul_cancel hh, Nat.div_mul_cancel hw]
  rw [rotPosIds, if_neg (by omega), if_pos e]
  have key : ∀ (f : Nat → Nat), ∀ r < h, ∀ c < w, ((List.range (h * w)).map f).getD (r * w + c) 0 = f (r * w + c) := by
    intro f r hr c hc
    rw [List.getD_eq_getElem _ _ (by simpa using lt_mul hc hr)]
    simp
  dsimp only
  rw [order1_map m h w hm hh hw _ 0 (fun r _ => r) (fun r hr c hc => by rw [key _ r hr c hc]; exact (dm hc).1),
    order1_map m h w hm hh hw _ 0 (fun _ c => c) (fun r hr c hc => by rw [key _ r hr c hc]; exact (dm hc).2), List.zip_map']
  simp

theorem mapM_some {α β : Type} (l : List α) (f : α → Option β) (g : α → β) (h : ∀ a ∈ l, f a = some (g a)) : l.mapM f = some (l.map g) := by
  induction l with
  | nil => rfl
  | cons a l ih => rw [List.mapM_cons, h a List.mem_cons_self, ih fun b hb => h b (List.mem_cons_of_mem _ hb)]; rfl

theorem mapM_none {α β : Type} (l : List α) (f : α → Option β) (a : α) (ha : a ∈ l) (h : f a = none) : l.mapM f = none := by
  induction l with
  | nil => cases ha
  | cons b l ih =>
    rw [List.mapM_cons]
    rcases List.mem_cons.1 ha with rfl | ha
    · rw [h]; rfl
    · rw [ih ha]; cases f b <;> rfl

theorem tile_eq (x : List ℚ) (t h w m : Nat) (hm : 0 < m) (hh : m ∣ h) (hw : m ∣ w) (hx : x.length = h * w) :
    tile x t h w m = some ((List.range t).flatMap fun _ => (order1 m h w).map fun p => x.getD (p.1 * w + p.2) 0) := by
  have e : h * w = h / m * m * (w / m) * m := by rw [Nat.mul_assoc (h / m * m), Nat.div_mul_cancel hh, Nat.div_mul_cancel hw]
  rw [tile, if_neg (by omega), if_pos (by rw [← e])]
  dsimp only
  congr 1
  rw [digits5 t (h / m) (w / m) m (fun f a c b d => (tile.repeatL' x t).getD ((((f * (h / m) + a) * m + b) * (w / m) + c) * m + d) 0)]
  simp only [order1, block, List.map_flatMap, List.map_map]
  refine List.flatMap_congr fun f hf => List.flatMap_congr fun a ha => List.flatMap_congr fun c hc => List.flatMap_congr fun b hb => List.map_congr_left fun d hd => ?_
  have hf := List.mem_range.1 hf
  have ha := List.mem_range.1 ha
  have hc := List.mem_range.1 hc
  have hb := List.mem_range.1 hb
  have hd := List.mem_range.1 hd
  have eh := Nat.div_mul_cancel hh
  have ew := Nat.div_mul_cancel hw
  have h1 := lt_mul hb ha
  have h2 := lt_mul hd hc
  rw [eh] at h1
  rw [ew] at h2
  have h3 := lt_mul h2 h1
  have ei : (((f * (h / m) + a) * m + b) * (w / m) + c) * m + d = f * (h * w) + ((a * m + b) * w + (c * m + d)) := by
    have : (((f * (h / m) + a) * m + b) * (w / m) + c) * m + d = f * ((h / m * m) * (w / m * m)) + ((a * m + b) * (w / m * m) + (c * m + d)) := by ring
    rw [this, eh, ew]
  simp only [Function.comp]
  rw [ei, tile.repeatL', List.getD_eq_getElem _ _ (by simp only [List.length_map, List.length_range, hx]; rw [Nat.mul_comm (h * w)]; exact lt_mul h3 hf)]
  simp only [List.getElem_map, List.getElem_range, hx]
  rw [(dm h3).2]

/-! ## Interpolation -/

theorem linspace_get (side n i : Nat) (h : i < n) : (linspace side n).getD i 0 = place side n i := by
  rw [linspace, List.getD_eq_getElem _ _ (by simpa using h)]
  simp [place]

theorem place_bounds (side n i : Nat) (hs : 0 < side) (h : i < n) : 0 ≤ place side n i ∧ place side n i ≤ (side : ℚ) - 1 := by
  have hs' : (0 : ℚ) ≤ (side : ℚ) - 1 := by
    have : (1 : ℚ) ≤ side := by exact_mod_cast hs
    linarith
  rw [place]
  split_ifs with hn
  · exact ⟨le_refl _, hs'⟩
  · have hn' : (0 : ℚ) < (n : ℚ) - 1 := by
      have : (2 : ℚ) ≤ n := by exact_mod_cast (by omega : 2 ≤ n)
      linarith
    have hi : (i : ℚ) ≤ (n : ℚ) - 1 := by
      have : ((i : ℚ) + 1) ≤ n := by exact_mod_cast h
      linarith
    refine ⟨div_nonneg (mul_nonneg (Nat.cast_nonneg _) hs') hn'.le, ?_⟩
    rw [div_le_iff₀ hn', mul_comm]
    exact mul_le_mul_of_nonneg_left hi hs'

theorem frac_bounds (x : ℚ) : 0 ≤ frac x ∧ frac x < 1 := ⟨sub_nonneg.2 (Int.floor_le x), by have := Int.lt_floor_add_one x; unfold frac; linarith⟩

theorem floor_lt (side : Nat) (x : ℚ) (h0 : 0 ≤ x) (h1 : x ≤ (side : ℚ) - 1) : 0 ≤ ⌊x⌋ ∧ ⌊x⌋ ≤ (side : Int) - 1 := by
  refine ⟨Int.floor_nonneg.2 h0, ?_⟩
  have := (Int.floor_le x).trans h1
  have : ((⌊x⌋ : Int) : ℚ) ≤ (((side : Int) - 1 : Int) : ℚ) := by push_cast; exact this
  exact_mod_cast this

theorem patchEmb_eq (side : Nat) (E : Nat → ℚ) (x y : ℚ) (hx0 : 0 ≤ x) (hx1 : x ≤ (side : ℚ) - 1) (hy0 : 0 ≤ y) (hy1 : y ≤ (side : ℚ) - 1) :
    patchEmb side E x y = some (bilinear side E x y) := by
  obtain ⟨a0, a1⟩ := floor_lt side x hx0 hx1
  obtain ⟨b0, b1⟩ := floor_lt side y hy0 hy1
  have hfx : frac x = x - ⌊x⌋ := rfl
  have hfy : frac y = y - ⌊y⌋ := rfl
  have fx := frac_bounds x
  have fy := frac_bounds y
  obtain ⟨i, hi⟩ := Int.eq_ofNat_of_zero_le a0
  obtain ⟨j, hj⟩ := Int.eq_ofNat_of_zero_le b0
  have hi1 : i + 1 ≤ side := by omega
  have hj1 : j + 1 ≤ side := by omega
  have ci : ceilIdx side x = ((min (i + 1) (side - 1) : Nat) : Int) := by rw [ceilIdx, hi]; omega
  have cj : ceilIdx side y = ((min (j + 1) (side - 1) : Nat) : Int) := by rw [ceilIdx, hj]; omega
  have fi : floorIdx x = (i : Int) := hi
  have fj : floorIdx y = (j : Int) := hj
  have bound : ∀ p q : Nat, p < side → q < side → (0 : Int) ≤ (p : Int) * side + q ∧ (p : Int) * side + q < (side * side : Nat) := by
    intro p q hp hq
    have := lt_mul hq hp
    constructor
    · positivity
    · exact_mod_cast this
  have hc : ∀ c ∈ corners side x y, 0 ≤ c.1 ∧ c.1 < (side * side : Nat) := by
    intro c hc
    simp only [corners, fi, fj, ci, cj, List.mem_cons, List.not_mem_nil, or_false] at hc
    rcases hc with rfl | rfl | rfl | rfl <;> exact bound _ _ (by omega) (by omega)
  have tn : ∀ p q : Nat, ((p : Int) * side + q).toNat = p * side + q := by
    intro p q
    have : (p : Int) * side + q = ((p * side + q : Nat) : Int) := by push_cast; rfl
    rw [this, Int.toNat_natCast]
  rw [patchEmb, if_pos hc]
  congr 1
  simp only [corners, fi, fj, ci, cj, List.map_cons, List.map_nil, List.sum_cons, List.sum_nil, tn, bilinear, ← hfx, ← hfy, hi, hj]
  simp only [Int.ofNat_eq_natCast, Int.toNat_natCast, Int.cast_natCast]
  rw [show min i (side - 1) = i by omega, show min j (side - 1) = j by omega]
  rw [hi] at hfx
  rw [hj] at hfy
  simp only [Int.ofNat_eq_natCast, Int.cast_natCast] at hfx hfy
  rw [hfx, hfy]
  ring

theorem imageEmb_eq (side : Nat) (E : Nat → ℚ) (h w : Nat) (hs : 0 < side) :
    imageEmb side E h w = some ((List.range (h * w)).map fun k => bilinear side E (place side h (k / w)) (place side w (k % w))) := by
  refine mapM_some _ _ _ fun k hk => ?_
  have hk := List.mem_range.1 hk
  have hw : 0 < w := Nat.pos_of_ne_zero fun e => by rw [e] at hk; omega
  have h1 : k / w < h := (Nat.div_lt_iff_lt_mul hw).2 hk
  have h2 : k % w < w := Nat.mod_lt _ hw
  rw [linspace_get side h _ h1, linspace_get side w _ h2]
  exact patchEmb_eq side E _ _ (place_bounds side h _ hs h1).1 (place_bounds side h _ hs h1).2 (place_bounds side w _ hs h2).1 (place_bounds side w _ hs h2).2

end Verif.Vit
