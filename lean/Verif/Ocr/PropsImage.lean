import Verif.Ocr.Image
import Verif.Bits.PropsQuantize

/-!
# C168 (images) and C169 (tiles)
-/

namespace Verif.Ocr

open Verif.Bits (applyW applyW_same applyW_other cround cround_near)

variable {α : Type}

/-! ## Addresses of pixels -/

theorem adr_inj {w x y k x' y' k' : Nat} (hx : x < w) (hk : k < 3) (hx' : x' < w) (hk' : k' < 3)
    (h : (y * w + x) * 3 + k = (y' * w + x') * 3 + k') : x = x' ∧ y = y' ∧ k = k' := by
  have e1 : k = k' := by omega
  subst e1
  have e2 : y * w + x = y' * w + x' := by omega
  have hy : y = y' := by
    have a : (y * w + x) / w = (y' * w + x') / w := by rw [e2]
    have hw : 0 < w := by omega
    rwa [Nat.mul_comm y, Nat.mul_comm y', Nat.mul_add_div hw, Nat.mul_add_div hw, Nat.div_eq_of_lt hx, Nat.div_eq_of_lt hx', Nat.add_zero, Nat.add_zero] at a
  subst hy
  exact ⟨by omega, rfl, rfl⟩

theorem mem_put3 {cw x y : Nat} {v : Nat → α} {a : Nat × α} : a ∈ put3 cw x y v ↔ ∃ k, k < 3 ∧ a = ((y * cw + x) * 3 + k, v k) := by
  simp only [put3, List.mem_map, List.mem_range]
  exact ⟨fun ⟨k, h1, h2⟩ => ⟨k, h1, h2.symm⟩, fun ⟨k, h1, h2⟩ => ⟨k, h1, h2.symm⟩⟩

/-- Storing every pixel of an image of width `cw` once. -/
theorem fill_spec {cw ch : Nat} {v : Nat → Nat → Nat → α} {old : Nat → α} {x y k : Nat} (hx : x < cw) (hy : y < ch) (hk : k < 3) :
    applyW old ((List.range ch).flatMap fun y => (List.range cw).flatMap fun x => put3 cw x y (v x y)) ((y * cw + x) * 3 + k) = v x y k := by
  apply applyW_same
  · intro u hu
    simp only [List.mem_flatMap, List.mem_range, mem_put3] at hu
    obtain ⟨y', hy', x', hx', k', hk', he⟩ := hu
    rw [Prod.mk.injEq] at he
    obtain ⟨rfl, rfl, rfl⟩ := adr_inj hx hk hx' hk' he.1
    exact he.2
  · simp only [List.mem_flatMap, List.mem_range, mem_put3]
    exact ⟨y, hy, x, hx, k, hk, rfl⟩

theorem half (x : Int) : (0 ≤ x → x.tdiv 2 = x / 2) ∧ (x < 0 → x.tdiv 2 = -((-x) / 2)) := by
  constructor
  · intro h
    exact Int.tdiv_eq_ediv_of_nonneg h
  · intro h
    have := Int.tdiv_eq_ediv_of_nonneg (a := -x) (b := 2) (by omega)
    rw [Int.neg_tdiv] at this
    omega

/-- **C168.** A crop has the size of its box; each of its pixels is the pixel of the source at that place, or black
where the box leaves the source. -/
theorem C168_crop (im : Img α) (hc : im.c = 3) (zero : α) (fresh : Nat → α) {left upper right lower : Int} (h1 : left < right) (h2 : upper < lower) :
    ∃ out, crop im zero fresh left upper right lower = some out ∧ (out.w : Int) = right - left ∧ (out.h : Int) = lower - upper ∧ out.c = 3 ∧
      ∀ x y k, x < out.w → y < out.h → k < 3 →
        (∀ X Y : Nat, (X : Int) = left + x → (Y : Int) = upper + y → X < im.w → Y < im.h → out.pix x y k = im.pix X Y k) ∧
        ((left + x < 0 ∨ (im.w : Int) ≤ left + x ∨ upper + y < 0 ∨ (im.h : Int) ≤ upper + y) → out.pix x y k = zero) := by
  refine ⟨_, if_pos ⟨h1, h2⟩, by simp only; omega, by simp only; omega, rfl, fun x y k hx hy hk => ?_⟩
  have key : Img.pix (α := α) ⟨(right - left).toNat, (lower - upper).toNat, 3, applyW fresh
      ((List.range (lower - upper).toNat).flatMap fun (y : Nat) => (List.range (right - left).toNat).flatMap fun (x : Nat) =>
        put3 (right - left).toNat x y (cropSrc im zero (left + x) (upper + y)))⟩ x y k = cropSrc im zero (left + x) (upper + y) k :=
    fill_spec (v := fun x y => cropSrc im zero (left + x) (upper + y)) hx hy hk
  constructor
  · intro X Y hX hY hXw hYh
    rw [key, cropSrc, if_pos (by omega), Img.pix, hc]
    rw [show (upper + (y : Int)).toNat = Y by omega, show (left + (x : Int)).toNat = X by omega]
  · intro hout
    rw [key, cropSrc, if_neg (by omega)]

/-- **C168.** `CenterCrop`: the margins on both sides differ by at most one pixel, also when the box is larger than
the image. -/
theorem C168_center_crop (im : Img α) (hc : im.c = 3) (zero : α) (fresh : Nat → α) {ch cw : Nat} (h1 : 0 < ch) (h2 : 0 < cw) :
    ∃ (out : Img α) (left upper : Int), centerCrop im zero fresh ch cw = some out ∧ out.w = cw ∧ out.h = ch ∧
      |left - ((im.w : Int) - cw - left)| ≤ 1 ∧ |upper - ((im.h : Int) - ch - upper)| ≤ 1 ∧
      ∀ x y k, x < cw → y < ch → k < 3 → ∀ X Y : Nat, (X : Int) = left + x → (Y : Int) = upper + y → X < im.w → Y < im.h →
        out.pix x y k = im.pix X Y k := by
  obtain ⟨out, e, w1, w2, -, w4⟩ := C168_crop im hc zero fresh (left := ((im.w : Int) - cw).tdiv 2) (upper := ((im.h : Int) - ch).tdiv 2)
    (right := ((im.w : Int) - cw).tdiv 2 + cw) (lower := ((im.h : Int) - ch).tdiv 2 + ch) (by omega) (by omega)
  refine ⟨out, _, _, e, by omega, by omega, ?_, ?_, fun x y k hx hy hk => (w4 x y k (by omega) (by omega) hk).1⟩
  · have := half ((im.w : Int) - cw)
    rw [abs_le]; omega
  · have := half ((im.h : Int) - ch)
    rw [abs_le]; omega

/-! ## Padding -/

theorem cround_int (n : ℤ) : cround (n : ℚ) = n := by
  have h := cround_near (n : ℚ)
  rw [abs_le] at h
  have h1 : ((cround (n : ℚ) : ℤ) : ℚ) - (n : ℚ) < 1 := by linarith
  have h2 : -1 < ((cround (n : ℚ) : ℤ) : ℚ) - (n : ℚ) := by linarith
  have h1' : cround (n : ℚ) - n < 1 := by exact_mod_cast h1
  have h2' : -1 < cround (n : ℚ) - n := by exact_mod_cast h2
  omega

theorem cround_le {x : ℚ} {n : ℤ} (h : x ≤ n) : cround x ≤ n := by
  have hn := cround_near x
  rw [abs_le] at hn
  by_contra hc
  have : n + 1 ≤ cround x := by omega
  have h' : ((n : ℚ) + 1) ≤ (cround x : ℚ) := by exact_mod_cast this
  linarith

/-- **C168.** The resized image fits the target, and fills it in one direction. -/
theorem C168_pad_size {w h tw th : Nat} (hw : 0 < w) (hh : 0 < h) (htw : 0 < tw) (hth : 0 < th) :
    (padSize w h tw th).1 ≤ tw ∧ (padSize w h tw th).2 ≤ th ∧ 0 < (padSize w h tw th).1 ∧ 0 < (padSize w h tw th).2 ∧
      ((padSize w h tw th).1 = tw ∨ (padSize w h tw th).2 = th) := by
  have hw' : (0 : ℚ) < w := by exact_mod_cast hw
  have hh' : (0 : ℚ) < h := by exact_mod_cast hh
  have e1 : (w : ℚ) * ((tw : ℚ) / w) = ((tw : ℤ) : ℚ) := by push_cast; field_simp
  have e2 : (h : ℚ) * ((th : ℚ) / h) = ((th : ℤ) : ℚ) := by push_cast; field_simp
  have a1 : cround ((w : ℚ) * min ((tw : ℚ) / w) ((th : ℚ) / h)) ≤ tw :=
    cround_le (by rw [← e1]; exact mul_le_mul_of_nonneg_left (min_le_left _ _) hw'.le)
  have a2 : cround ((h : ℚ) * min ((tw : ℚ) / w) ((th : ℚ) / h)) ≤ th :=
    cround_le (by rw [← e2]; exact mul_le_mul_of_nonneg_left (min_le_right _ _) hh'.le)
  have a3 : cround ((w : ℚ) * min ((tw : ℚ) / w) ((th : ℚ) / h)) = tw ∨ cround ((h : ℚ) * min ((tw : ℚ) / w) ((th : ℚ) / h)) = th := by
    rcases min_choice ((tw : ℚ) / w) ((th : ℚ) / h) with hm | hm
    · left; rw [hm, e1, cround_int]
    · right; rw [hm, e2, cround_int]
  simp only [padSize]
  refine ⟨by omega, by omega, by omega, by omega, ?_⟩
  rcases a3 with h | h <;> rw [h] <;> omega

/-- **C168.** `Image::pad`: the result has the target size; the resized picture is in the middle, with margins that
differ by at most one, and every other pixel has the given colour. -/
theorem C168_pad (im : Img α) (hc : im.c = 3) (hw : 0 < im.w) (hh : 0 < im.h) (rs : Nat → Nat → Nat → α) (fresh : Nat → α) {tw th : Nat}
    (htw : 0 < tw) (hth : 0 < th) (col : Nat → α) :
    ∃ (out : Img α) (nw nh ox oy : Nat), pad im rs fresh tw th col = some out ∧ out.w = tw ∧ out.h = th ∧ out.c = 3 ∧ (nw, nh) = padSize im.w im.h tw th ∧
      ox + nw ≤ tw ∧ tw ≤ 2 * ox + nw + 1 ∧ 2 * ox + nw ≤ tw ∧ oy + nh ≤ th ∧ th ≤ 2 * oy + nh + 1 ∧ 2 * oy + nh ≤ th ∧
      (∀ x y k, x < nw → y < nh → k < 3 → out.pix (ox + x) (oy + y) k = rs nw nh ((y * nw + x) * 3 + k)) ∧
      (∀ X Y k, X < tw → Y < th → k < 3 → (X < ox ∨ ox + nw ≤ X ∨ Y < oy ∨ oy + nh ≤ Y) → out.pix X Y k = col k) := by
  obtain ⟨s1, s2, s3, s4, -⟩ := C168_pad_size hw hh htw hth
  obtain ⟨nw, hnw⟩ : ∃ n, n = (padSize im.w im.h tw th).1 := ⟨_, rfl⟩
  obtain ⟨nh, hnh⟩ : ∃ n, n = (padSize im.w im.h tw th).2 := ⟨_, rfl⟩
  rw [← hnw] at s1 s3
  rw [← hnh] at s2 s4
  have eox : ((tw : Int) - nw).tdiv 2 = ((tw - nw) / 2 : Nat) := by
    rw [(half _).1 (by omega)]
    omega
  have eoy : ((th : Int) - nh).tdiv 2 = ((th - nh) / 2 : Nat) := by
    rw [(half _).1 (by omega)]
    omega
  obtain ⟨ox, hox⟩ : ∃ n, n = (tw - nw) / 2 := ⟨_, rfl⟩
  obtain ⟨oy, hoy⟩ : ∃ n, n = (th - nh) / 2 := ⟨_, rfl⟩
  -- the stores of the blit
  have blit : ∀ a : Nat × α, a ∈ ((List.range nh).flatMap fun (y : Nat) =>
      if ((th : Int) - nh).tdiv 2 + y < 0 ∨ ((th : Int) - nh).tdiv 2 + y ≥ th then [] else
        (List.range nw).flatMap fun (x : Nat) =>
          if ((tw : Int) - nw).tdiv 2 + x < 0 ∨ ((tw : Int) - nw).tdiv 2 + x ≥ tw then [] else
            put3 tw (((tw : Int) - nw).tdiv 2 + x).toNat (((th : Int) - nh).tdiv 2 + y).toNat fun k => rs nw nh ((y * nw + x) * 3 + k)) ↔
      ∃ x y k, x < nw ∧ y < nh ∧ k < 3 ∧ a = (((oy + y) * tw + (ox + x)) * 3 + k, rs nw nh ((y * nw + x) * 3 + k)) := by
    intro a
    rw [eox, eoy, ← hox, ← hoy]
    simp only [List.mem_flatMap, List.mem_range]
    constructor
    · rintro ⟨y, hy, ha⟩
      rw [if_neg (by omega)] at ha
      simp only [List.mem_flatMap, List.mem_range] at ha
      obtain ⟨x, hx, ha⟩ := ha
      rw [if_neg (by omega), mem_put3] at ha
      obtain ⟨k, hk, rfl⟩ := ha
      exact ⟨x, y, k, hx, hy, hk, by rw [show ((oy : Int) + (y : Int)).toNat = oy + y by omega, show ((ox : Int) + (x : Int)).toNat = ox + x by omega]⟩
    · rintro ⟨x, y, k, hx, hy, hk, rfl⟩
      refine ⟨y, hy, ?_⟩
      rw [if_neg (by omega)]
      simp only [List.mem_flatMap, List.mem_range]
      refine ⟨x, hx, ?_⟩
      rw [if_neg (by omega), mem_put3]
      exact ⟨k, hk, by rw [show ((oy : Int) + (y : Int)).toNat = oy + y by omega, show ((ox : Int) + (x : Int)).toNat = ox + x by omega]⟩
  have app : ∀ (l m : List (Nat × α)) (old : Nat → α), applyW old (l ++ m) = applyW (applyW old l) m := by
    intro l m old
    simp [applyW]
  have epix : ∀ X Y k, Img.pix (α := α) ⟨tw, th, 3, applyW fresh (padW ⟨nw, nh, 3, rs nw nh⟩ tw th col)⟩ X Y k
      = applyW (applyW fresh ((List.range th).flatMap fun y => (List.range tw).flatMap fun x => put3 tw x y col))
        ((List.range nh).flatMap fun (y : Nat) =>
          if ((th : Int) - nh).tdiv 2 + y < 0 ∨ ((th : Int) - nh).tdiv 2 + y ≥ th then [] else
            (List.range nw).flatMap fun (x : Nat) =>
              if ((tw : Int) - nw).tdiv 2 + x < 0 ∨ ((tw : Int) - nw).tdiv 2 + x ≥ tw then [] else
                put3 tw (((tw : Int) - nw).tdiv 2 + x).toNat (((th : Int) - nh).tdiv 2 + y).toNat fun k => rs nw nh ((y * nw + x) * 3 + k))
        ((Y * tw + X) * 3 + k) := by
    intro X Y k
    rw [← app]
    rfl
  refine ⟨⟨tw, th, 3, applyW fresh (padW ⟨nw, nh, 3, rs nw nh⟩ tw th col)⟩, nw, nh, ox, oy, ?_, rfl, rfl, rfl, by rw [hnw, hnh],
    by omega, by omega, by omega, by omega, by omega, by omega, ?_, ?_⟩
  · rw [pad, if_pos ⟨hc, htw, hth⟩, hnw, hnh]
  · intro x y k hx hy hk
    rw [epix]
    apply applyW_same
    · intro u hu
      rw [blit] at hu
      obtain ⟨x', y', k', hx', hy', hk', he⟩ := hu
      rw [Prod.mk.injEq] at he
      obtain ⟨e1, e2, rfl⟩ := adr_inj (by omega) hk (by omega) hk' he.1
      rw [he.2, show x = x' by omega, show y = y' by omega]
    · rw [blit]
      exact ⟨x, y, k, hx, hy, hk, rfl⟩
  · intro X Y k hX hY hk hout
    rw [epix, applyW_other]
    · exact fill_spec (v := fun _ _ => col) hX hY hk
    · intro u hu
      rw [blit] at hu
      obtain ⟨x', y', k', hx', hy', hk', he⟩ := hu
      rw [Prod.mk.injEq] at he
      obtain ⟨e1, e2, -⟩ := adr_inj hX hk (by omega) hk' he.1
      omega

/-- **C168.** `Resize` with one number: the shorter side gets that length, the other one keeps the ratio up to
half a pixel. -/
theorem C168_shorter_side {w h t : Nat} (hw : 0 < w) (hh : 0 < h) :
    (w ≤ h → (shorterSize w h t).1 = t ∧ |((shorterSize w h t).2 : ℚ) - (t : ℚ) * h / w| ≤ 1 / 2) ∧
    (h ≤ w → (shorterSize w h t).2 = t ∧ |((shorterSize w h t).1 : ℚ) - (t : ℚ) * w / h| ≤ 1 / 2) := by
  have hw' : (0 : ℚ) < w := by exact_mod_cast hw
  have hh' : (0 : ℚ) < h := by exact_mod_cast hh
  have other : ∀ x : ℚ, 0 ≤ x → |(((cround x).toNat : Nat) : ℚ) - x| ≤ 1 / 2 := by
    intro x hx
    have h0 : 0 ≤ cround x := by
      by_contra hneg
      have : cround x ≤ -1 := by omega
      have h1 : ((cround x : ℤ) : ℚ) ≤ -1 := by exact_mod_cast this
      have h2 := cround_near x
      rw [abs_le] at h2
      linarith
    have : (((cround x).toNat : Nat) : ℚ) = ((cround x : ℤ) : ℚ) := by
      have := Int.toNat_of_nonneg h0
      exact_mod_cast this
    rw [this]
    exact cround_near x
  have same : ∀ n : Nat, 0 < n → (cround ((n : ℚ) * ((t : ℚ) / (n : ℚ)))).toNat = t := by
    intro n hn
    have hn' : (0 : ℚ) < n := by exact_mod_cast hn
    have e : (n : ℚ) * ((t : ℚ) / n) = ((t : ℤ) : ℚ) := by push_cast; field_simp
    rw [e, cround_int]
    rfl
  constructor
  · intro hle
    simp only [shorterSize, Nat.min_eq_right hle]
    refine ⟨same w hw, ?_⟩
    have := other ((h : ℚ) * ((t : ℚ) / w)) (by positivity)
    rwa [show (t : ℚ) * h / w = (h : ℚ) * ((t : ℚ) / w) by ring]
  · intro hle
    simp only [shorterSize, Nat.min_eq_left hle]
    refine ⟨same h hh, ?_⟩
    have := other ((w : ℚ) * ((t : ℚ) / h)) (by positivity)
    rwa [show (t : ℚ) * w / h = (w : ℚ) * ((t : ℚ) / h) by ring]

/-- Non-vacuity: a 3 × 2 picture padded to 5 × 5 is resized to 5 × 3. -/
example : padSize 3 2 5 5 = (5, 3) := by decide +kernel

/-! ## Tensors -/

/-- **C168.** `ToTensor`: channel first, the value of channel `k` of pixel `(x, y)` divided by 255. -/
theorem C168_to_tensor {F : Type} (thr : Option Nat) (im : Img α) (hc : im.c = 3) (cvt : α → F) (div255 : F → F) {x y k : Nat}
    (hx : x < im.w) (hy : y < im.h) (hk : k < 3) :
    toTensor thr im cvt div255 ((k * im.h + y) * im.w + x) = some (div255 (cvt (im.pix x y k))) := by
  have hb : Verif.Tensor.InB [im.h, im.w, 3] [y, x, k] := ⟨hy, hx, hk, trivial⟩
  have := Verif.Tensor.copies_buf (perm := [2, 0, 1]) thr (fun j => some (cvt (im.px j))) (s := [im.h, im.w, 3]) (by show List.Perm [2, 0, 1] (List.range 3); decide) hb (by simp)
  have e1 : Verif.Tensor.lin (Verif.Tensor.gather [2, 0, 1] [im.h, im.w, 3]) (Verif.Tensor.gather [2, 0, 1] [y, x, k]) = (k * im.h + y) * im.w + x := by
    simp [Verif.Tensor.gather, Verif.Tensor.lin, Verif.Tensor.numel]
    ring
  have e2 : Verif.Tensor.lin [im.h, im.w, 3] [y, x, k] = (y * im.w + x) * im.c + k := by
    simp [Verif.Tensor.lin, Verif.Tensor.numel, hc]
    ring
  rw [e1, e2] at this
  rw [toTensor, this]
  rfl

theorem fold_update {F : Type} (g : Nat → F → F) : ∀ (l : List (Nat × Nat)) (m : Nat → F), (l.map Prod.snd).Nodup →
    (∀ c a, (c, a) ∈ l → l.foldl (fun m a => Function.update m a.2 (g a.1 (m a.2))) m a = g c (m a)) ∧
    (∀ a, a ∉ l.map Prod.snd → l.foldl (fun m a => Function.update m a.2 (g a.1 (m a.2))) m a = m a) := by
  intro l
  induction l with
  | nil => intro m _; simp
  | cons p l ih =>
    intro m hn
    rw [List.map_cons, List.nodup_cons] at hn
    obtain ⟨i1, i2⟩ := ih (Function.update m p.2 (g p.1 (m p.2))) hn.2
    refine ⟨fun c a ha => ?_, fun a ha => ?_⟩
    · rw [List.foldl_cons]
      rw [List.mem_cons] at ha
      rcases ha with rfl | ha
      · rw [i2 _ hn.1]
        simp
      · rw [i1 c a ha]
        have : a ≠ p.2 := by
          rintro rfl
          exact hn.1 (List.mem_map.mpr ⟨_, ha, rfl⟩)
        rw [Function.update_of_ne this]
    · rw [List.foldl_cons, i2 a (fun h => ha (by simp [h]))]
      have : a ≠ p.2 := by
        rintro rfl
        exact ha (by simp)
      rw [Function.update_of_ne this]

/-- **C168.** `Normalize`: every value of channel `ch` becomes `(v - mean) / std` with the numbers of that channel;
nothing else in memory changes. -/
theorem C168_normalize {F : Type} (sub div : F → F → F) (mean std : Nat → F) (c plane ptr : Nat) (mem : Nat → F) :
    (∀ ch i, ch < c → i < plane → normalize sub div mean std c plane ptr mem (ptr + (ch * plane + i)) =
      div (sub (mem (ptr + (ch * plane + i))) (mean ch)) (std ch)) ∧
    (∀ a, a < ptr ∨ ptr + c * plane ≤ a → normalize sub div mean std c plane ptr mem a = mem a) := by
  obtain ⟨l, hl⟩ : ∃ l, l = (List.range c).flatMap fun ch => (List.range plane).map fun i => (ch, ptr + (ch * plane + i)) := ⟨_, rfl⟩
  have hsnd : l.map Prod.snd = (List.range (c * plane)).map (ptr + ·) := by
    rw [hl, List.map_flatMap]
    clear hl
    induction c with
    | zero => simp
    | succ c ih =>
      rw [List.range_succ, List.flatMap_append, ih, Nat.succ_mul, List.range_add, List.map_append]
      simp [Function.comp_def]
  have hn : (l.map Prod.snd).Nodup := by
    rw [hsnd]
    exact List.nodup_range.map fun a b h => by simpa using h
  obtain ⟨f1, f2⟩ := fold_update (fun ch v => div (sub v (mean ch)) (std ch)) l mem hn
  unfold normalize
  rw [← hl]
  constructor
  · intro ch i hch hi
    refine f1 ch _ ?_
    rw [hl, List.mem_flatMap]
    exact ⟨ch, List.mem_range.mpr hch, List.mem_map.mpr ⟨i, List.mem_range.mpr hi, rfl⟩⟩
  · intro a ha
    refine f2 a ?_
    rw [hsnd]
    simp only [List.mem_map, List.mem_range, not_exists, not_and]
    intro x hx he
    omega

/-- **C168 is violated** by `Normalize` as a transform that returns a new tensor: it works in the memory of its
argument, so whoever holds the argument sees it changed, and applying the same pipeline to it again normalises
twice. -/
theorem C168_normalize_in_place_violated {F : Type} (sub div : F → F → F) (mean std : Nat → F) (c plane ptr : Nat) (mem : Nat → F) {ch i : Nat}
    (hch : ch < c) (hi : i < plane) {v w : F} (hv : mem (ptr + (ch * plane + i)) = v) (hw : div (sub v (mean ch)) (std ch) = w) (hne : w ≠ v) :
    let mem' := normalize sub div mean std c plane ptr mem
    mem' (ptr + (ch * plane + i)) ≠ mem (ptr + (ch * plane + i)) ∧
      normalize sub div mean std c plane ptr mem' (ptr + (ch * plane + i)) = div (sub w (mean ch)) (std ch) := by
  have e := (C168_normalize sub div mean std c plane ptr mem).1 ch i hch hi
  rw [hv, hw] at e
  refine ⟨by rw [e, hv]; exact hne, ?_⟩
  rw [(C168_normalize sub div mean std c plane ptr _).1 ch i hch hi, e]

/-- Non-vacuity: mean and deviation one half. -/
example : ((1 : ℚ) - 1 / 2) / (1 / 2) = 1 ∧ ((0 : ℚ) - 1 / 2) / (1 / 2) ≠ 0 := by norm_num

end Verif.Ocr
