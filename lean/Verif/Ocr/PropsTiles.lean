import Verif.Ocr.PropsImage
import Mathlib.Data.List.Sort

/-!
# C169: the tiles of a large image
-/

namespace Verif.Ocr

variable {α : Type}

/-! ## The candidates -/

theorem mem_ratioPairs {lo hi : Nat} (r : Nat × Nat) :
    r ∈ ratioPairs lo hi ↔ 1 ≤ r.1 ∧ 1 ≤ r.2 ∧ lo ≤ r.1 * r.2 ∧ r.1 * r.2 ≤ hi := by
  obtain ⟨a, b⟩ := r
  simp only [ratioPairs, List.mem_flatMap, List.mem_filterMap, List.mem_range'_1]
  constructor
  · rintro ⟨n, hn, i, hi', j, hj, he⟩
    split_ifs at he with hc
    simp only [Option.some.injEq, Prod.mk.injEq] at he
    obtain ⟨rfl, rfl⟩ := he
    exact ⟨hi'.1, hj.1, hc⟩
  · rintro ⟨ha, hb, h1, h2⟩
    have e1 : a ≤ a * b := Nat.le_mul_of_pos_right a hb
    have e2 : b ≤ a * b := Nat.le_mul_of_pos_left b ha
    refine ⟨a * b, ⟨by omega, by omega⟩, a, ⟨by omega, by omega⟩, b, ⟨by omega, by omega⟩, ?_⟩
    rw [if_pos ⟨h1, h2⟩]

/-! ## The choice -/

/-- The grid of the specification: its aspect ratio is closest to that of the image; among those, it is the
largest whose half area the image exceeds, or the smallest if there is none. -/
structure Best (asp : ℚ) (w h S : Nat) (P : Nat × Nat → Prop) (g : Nat × Nat) : Prop where
  cand : P g
  closest : ∀ r, P r → ratioDiff asp g ≤ ratioDiff asp r
  size : (covers w h S g ∧ ∀ r, P r → ratioDiff asp r = ratioDiff asp g → covers w h S r → r.1 * r.2 ≤ g.1 * g.2) ∨
    ∀ r, P r → ratioDiff asp r = ratioDiff asp g → (¬ covers w h S r) ∧ g.1 * g.2 ≤ r.1 * r.2

/-- The invariant of the loop over a sorted list. -/
theorem fold_best (asp : ℚ) (w h S : Nat) : ∀ (rs seen : List (Nat × Nat)) (b : Option ℚ × (Nat × Nat)),
    (seen ++ rs).Pairwise (fun a b => a.1 * a.2 ≤ b.1 * b.2) →
    (seen = [] → b.1 = none) →
    (seen ≠ [] → b.1 = some (ratioDiff asp b.2) ∧ b.2 ∈ seen ∧ (∀ r ∈ seen, ratioDiff asp b.2 ≤ ratioDiff asp r) ∧
      ((covers w h S b.2 ∧ ∀ r ∈ seen, ratioDiff asp r = ratioDiff asp b.2 → covers w h S r → r.1 * r.2 ≤ b.2.1 * b.2.2) ∨
        ∀ r ∈ seen, ratioDiff asp r = ratioDiff asp b.2 → (covers w h S r → r = b.2) ∧ b.2.1 * b.2.2 ≤ r.1 * r.2)) →
    seen ++ rs ≠ [] →
    let o := rs.foldl (closestStep asp w h S) b
    o.2 ∈ seen ++ rs ∧ (∀ r ∈ seen ++ rs, ratioDiff asp o.2 ≤ ratioDiff asp r) ∧
      ((covers w h S o.2 ∧ ∀ r ∈ seen ++ rs, ratioDiff asp r = ratioDiff asp o.2 → covers w h S r → r.1 * r.2 ≤ o.2.1 * o.2.2) ∨
        ∀ r ∈ seen ++ rs, ratioDiff asp r = ratioDiff asp o.2 → (covers w h S r → r = o.2) ∧ o.2.1 * o.2.2 ≤ r.1 * r.2) := by
  intro rs
  induction rs with
  | nil =>
    intro seen b _ _ h2 h3
    simp only [List.append_nil, List.foldl_nil] at *
    exact (h2 h3).2
  | cons r rs ih =>
    intro seen b hp h1 h2 h3
    have hseen : ∀ x ∈ seen, x.1 * x.2 ≤ r.1 * r.2 := by
      intro x hx
      rw [List.pairwise_append] at hp
      exact hp.2.2 x hx r (by simp)
    have e : seen ++ r :: rs = (seen ++ [r]) ++ rs := by simp
    rw [e] at hp ⊢
    rw [List.foldl_cons]
    refine ih (seen ++ [r]) (closestStep asp w h S b r) hp (by simp) (fun _ => ?_) (by simp)
    by_cases hs : seen = []
    · subst hs
      have hb := h1 rfl
      have hst : closestStep asp w h S b r = (some (ratioDiff asp r), r) := by
        unfold closestStep; rw [hb]
      rw [hst]
      refine ⟨rfl, by simp, by simp, Or.inr ?_⟩
      intro x hx _
      simp only [List.nil_append, List.mem_singleton] at hx
      subst hx
      exact ⟨fun _ => rfl, le_refl _⟩
    · obtain ⟨hb, hm, hmin, hsz⟩ := h2 hs
      have hst : closestStep asp w h S b r = if ratioDiff asp r < ratioDiff asp b.2 then (some (ratioDiff asp r), r)
          else if ratioDiff asp r = ratioDiff asp b.2 ∧ covers w h S r then (some (ratioDiff asp b.2), r) else b := by
        unfold closestStep; rw [hb]
      rw [hst]
      split_ifs with c1 c2
      · refine ⟨rfl, by simp, ?_, Or.inr ?_⟩
        · intro x hx
          rw [List.mem_append, List.mem_singleton] at hx
          rcases hx with hx | rfl
          · exact c1.le.trans (hmin x hx)
          · exact le_refl _
        · intro x hx hd
          rw [List.mem_append, List.mem_singleton] at hx
          rcases hx with hx | rfl
          · have := hmin x hx
            rw [hd] at this
            exact absurd c1 (not_lt.mpr this)
          · exact ⟨fun _ => rfl, le_refl _⟩
      · refine ⟨by rw [c2.1], by simp, ?_, Or.inl ⟨c2.2, ?_⟩⟩
        · intro x hx
          rw [List.mem_append, List.mem_singleton] at hx
          rcases hx with hx | rfl
          · rw [c2.1]; exact hmin x hx
          · exact le_refl _
        · intro x hx _ _
          rw [List.mem_append, List.mem_singleton] at hx
          rcases hx with hx | rfl
          · exact hseen x hx
          · exact le_refl _
      · refine ⟨hb, by simp [hm], ?_, ?_⟩
        · intro x hx
          rw [List.mem_append, List.mem_singleton] at hx
          rcases hx with hx | rfl
          · exact hmin x hx
          · exact not_lt.mp c1
        · rcases hsz with ⟨hc, hl⟩ | hl
          · refine Or.inl ⟨hc, ?_⟩
            intro x hx hd hcx
            rw [List.mem_append, List.mem_singleton] at hx
            rcases hx with hx | rfl
            · exact hl x hx hd hcx
            · exact absurd ⟨hd, hcx⟩ c2
          · refine Or.inr ?_
            intro x hx hd
            rw [List.mem_append, List.mem_singleton] at hx
            rcases hx with hx | rfl
            · exact hl x hx hd
            · exact ⟨fun hcx => absurd ⟨hd, hcx⟩ c2, hseen _ hm⟩

/-- Whether the image covers half of a grid depends only on the number of cells, and is monotone. -/
theorem covers_mono {w h S : Nat} {r g : Nat × Nat} (hc : covers w h S r) (hle : g.1 * g.2 ≤ r.1 * r.2) : covers w h S g := by
  unfold covers at *
  have e : ∀ x : Nat × Nat, (1 / 2 * S * S * x.1 * x.2 : ℚ) = 1 / 2 * S * S * ((x.1 * x.2 : Nat) : ℚ) := by
    intro x; push_cast; ring
  rw [e] at *
  have : (1 / 2 * S * S * ((g.1 * g.2 : Nat) : ℚ) : ℚ) ≤ 1 / 2 * S * S * ((r.1 * r.2 : Nat) : ℚ) := by
    refine mul_le_mul_of_nonneg_left ?_ (by positivity)
    exact_mod_cast hle
  linarith

/-- **C169.** The grid chosen is the one of the specification, whatever order `std::sort` gives grids with equally
many cells. -/
theorem C169_grid {lo hi : Nat} (h1 : 1 ≤ hi) (hlo : lo ≤ hi) {rs : List (Nat × Nat)} (hs : Sorted lo hi rs) (asp : ℚ) (w h S : Nat) :
    Best asp w h S (fun r => 1 ≤ r.1 ∧ 1 ≤ r.2 ∧ lo ≤ r.1 * r.2 ∧ r.1 * r.2 ≤ hi) (findClosest asp w h S rs) := by
  have hne : rs ≠ [] := by
    have : (1, hi) ∈ rs := by
      rw [hs.mem, mem_ratioPairs]
      exact ⟨le_refl _, h1, by simpa using hlo, by simp⟩
    exact List.ne_nil_of_mem this
  obtain ⟨a, b, c⟩ := fold_best asp w h S rs [] (none, (1, 1)) (by simpa using hs.sorted) (fun _ => rfl) (fun h => absurd rfl h) (by simpa using hne)
  simp only [List.nil_append] at a b c
  have mem : ∀ r, r ∈ rs ↔ (1 ≤ r.1 ∧ 1 ≤ r.2 ∧ lo ≤ r.1 * r.2 ∧ r.1 * r.2 ≤ hi) := fun r => by rw [hs.mem, mem_ratioPairs]
  refine ⟨(mem _).mp a, fun r hr => b r ((mem r).mpr hr), ?_⟩
  change (covers w h S (findClosest asp w h S rs) ∧ _) ∨ _ at c
  rcases c with ⟨c1, c2⟩ | c
  · exact Or.inl ⟨c1, fun r hr => c2 r ((mem r).mpr hr)⟩
  · by_cases hc : covers w h S (findClosest asp w h S rs)
    · refine Or.inl ⟨hc, fun r hr hd hcr => ?_⟩
      rw [(c r ((mem r).mpr hr) hd).1 hcr]
      exact le_refl _
    · refine Or.inr fun r hr hd => ⟨fun hcr => hc ?_, (c r ((mem r).mpr hr) hd).2⟩
      have := (c r ((mem r).mpr hr) hd).1 hcr
      rw [this] at hcr
      exact hcr

/-- Of two different grids with equally many of the two to nine cells, some third one is closer to any aspect
ratio that is equally far from both. -/
theorem no_tie {asp : ℚ} {a b : Nat × Nat} (ha : 1 ≤ a.1 ∧ 1 ≤ a.2 ∧ 2 ≤ a.1 * a.2 ∧ a.1 * a.2 ≤ 9) (hb : 1 ≤ b.1 ∧ 1 ≤ b.2 ∧ 2 ≤ b.1 * b.2 ∧ b.1 * b.2 ≤ 9)
    (hne : a ≠ b) (hp : a.1 * a.2 = b.1 * b.2) (hd : ratioDiff asp a = ratioDiff asp b) :
    ∃ r : Nat × Nat, (1 ≤ r.1 ∧ 1 ≤ r.2 ∧ 2 ≤ r.1 * r.2 ∧ r.1 * r.2 ≤ 9) ∧ ratioDiff asp r < ratioDiff asp a := by
  -- the finitely many pairs
  have fin : ∀ a ∈ ratioPairs 2 9, ∀ b ∈ ratioPairs 2 9, a ≠ b → a.1 * a.2 = b.1 * b.2 →
      (a.1 : ℚ) / a.2 ≠ (b.1 : ℚ) / b.2 ∧
      ∃ r ∈ ratioPairs 2 9, |((a.1 : ℚ) / a.2 + (b.1 : ℚ) / b.2) / 2 - (r.1 : ℚ) / r.2| < |((a.1 : ℚ) / a.2 + (b.1 : ℚ) / b.2) / 2 - (a.1 : ℚ) / a.2| := by
    decide +kernel
  obtain ⟨hra, r, hr, hlt⟩ := fin a ((mem_ratioPairs a).mpr ha) b ((mem_ratioPairs b).mpr hb) hne hp
  have hmid : asp = ((a.1 : ℚ) / a.2 + (b.1 : ℚ) / b.2) / 2 := by
    unfold ratioDiff at hd
    rcases abs_eq_abs.mp hd with h | h
    · exact absurd (by linarith) hra
    · linarith
  refine ⟨r, (mem_ratioPairs r).mp hr, ?_⟩
  unfold ratioDiff
  rw [hmid]
  exact hlt

/-- **C169.** With the limits the model uses (two to nine cells) the specification determines the grid: the choice
does not depend on the order of equal elements. -/
theorem C169_grid_unique {rs rs' : List (Nat × Nat)} (hs : Sorted 2 9 rs) (hs' : Sorted 2 9 rs') (asp : ℚ) (w h S : Nat) :
    findClosest asp w h S rs = findClosest asp w h S rs' := by
  have b := C169_grid (by decide) (by decide) hs asp w h S
  have b' := C169_grid (by decide) (by decide) hs' asp w h S
  obtain ⟨g, hg⟩ : ∃ g, g = findClosest asp w h S rs := ⟨_, rfl⟩
  obtain ⟨g', hg'⟩ : ∃ g, g = findClosest asp w h S rs' := ⟨_, rfl⟩
  rw [← hg] at b
  rw [← hg'] at b'
  rw [← hg, ← hg']
  have hd : ratioDiff asp g = ratioDiff asp g' := le_antisymm (b.closest _ b'.cand) (b'.closest _ b.cand)
  by_contra hne
  have hprod : g.1 * g.2 = g'.1 * g'.2 := by
    rcases b.size with ⟨c, l⟩ | l <;> rcases b'.size with ⟨c', l'⟩ | l'
    · exact le_antisymm (l' _ b.cand hd c) (l _ b'.cand hd.symm c')
    · exact absurd c (l' _ b.cand hd).1
    · exact absurd c' (l _ b'.cand hd.symm).1
    · exact le_antisymm (l _ b'.cand hd.symm).2 (l' _ b.cand hd).2
  obtain ⟨r, hr, hlt⟩ := no_tie b.cand b'.cand hne hprod hd
  exact absurd (b.closest r hr) (not_le.mpr hlt)

/-- The grids of two to nine cells in an order `std::sort` may leave them in. -/
def grids29 : List (Nat × Nat) :=
  [(1, 2), (2, 1), (1, 3), (3, 1), (1, 4), (2, 2), (4, 1), (1, 5), (5, 1), (1, 6), (2, 3), (3, 2), (6, 1), (1, 7), (7, 1),
    (1, 8), (2, 4), (4, 2), (8, 1), (1, 9), (3, 3), (9, 1)]

/-- Non-vacuity: a sorted list exists. -/
theorem grids29_sorted : Sorted 2 9 grids29 := by
  refine ⟨by decide, fun r => ?_, by decide⟩
  have h1 : ∀ r ∈ grids29, r ∈ ratioPairs 2 9 := by decide +kernel
  have h2 : ∀ r ∈ ratioPairs 2 9, r ∈ grids29 := by decide +kernel
  exact ⟨h1 r, h2 r⟩

/-- Non-vacuity: an 800 × 400 image gets the grid 2 × 1 and, as it is larger, a 2000 × 1000 image 4 × 2. -/
example : findClosest 2 2000 1000 640 grids29 = (4, 2) ∧ findClosest 2 800 400 640 grids29 = (2, 1) := by
  decide +kernel

/-! ## The tiles -/

theorem mapM_range {β : Type} {f : Nat → Option β} : ∀ n, (∀ i, i < n → (f i).isSome) →
    ∃ l, (List.range n).mapM f = some l ∧ l.length = n ∧ ∀ i, (hi : i < l.length) → f i = some l[i] := by
  intro n
  induction n with
  | zero => intro _; exact ⟨[], rfl, rfl, by simp⟩
  | succ n ih =>
    intro h
    obtain ⟨l, e, hl, hg⟩ := ih fun i hi => h i (by omega)
    obtain ⟨b, hb⟩ := Option.isSome_iff_exists.mp (h n (by omega))
    refine ⟨l ++ [b], ?_, by simp [hl], fun i hi => ?_⟩
    · rw [List.range_succ, List.mapM_append, e]
      simp [hb]
    · rcases Nat.lt_or_ge i l.length with hlt | hge
      · rw [List.getElem_append_left hlt]
        exact hg i hlt
      · have : i = n := by simp at hi; omega
        subst this
        rw [List.getElem_append_right hge, hb]
        simp

/-- **C169.** One tile per cell, each of the asked size; pixel `(X, Y)` of the resized image is pixel
`(X mod S, Y mod S)` of tile number `(Y / S) * columns + X / S`; with a thumbnail it is the last image. -/
theorem C169_tiles (im : Img α) (zero : α) (fresh : Nat → α) (res : Nat → Nat → Nat → α) {S : Nat} (hS : 0 < S) (thumb : Bool)
    {lo hi : Nat} (h2 : 2 ≤ lo) (hlo : lo ≤ hi) {rs : List (Nat × Nat)} (hs : Sorted lo hi rs) (hw : 0 < im.w) (hh : 0 < im.h) :
    ∃ out g, dynamicPreprocess im zero fresh res S thumb rs = some (out, g) ∧
      g = findClosest ((im.w : ℚ) / im.h) im.w im.h S rs ∧
      out.length = g.1 * g.2 + (if thumb then 1 else 0) ∧
      (∀ i, (hi : i < out.length) → out[i].w = S ∧ out[i].h = S ∧ out[i].c = 3) ∧
      (∀ X Y k, X < S * g.1 → Y < S * g.2 → k < 3 → ∃ hi : Y / S * g.1 + X / S < out.length,
        out[Y / S * g.1 + X / S].pix (X % S) (Y % S) k = res (S * g.1) (S * g.2) ((Y * (S * g.1) + X) * 3 + k)) ∧
      (thumb = true → ∃ hi : g.1 * g.2 < out.length, out[g.1 * g.2].px = res S S) := by
  have hbest := C169_grid (by omega) hlo hs ((im.w : ℚ) / im.h) im.w im.h S
  obtain ⟨g, hg⟩ : ∃ g, g = findClosest ((im.w : ℚ) / im.h) im.w im.h S rs := ⟨_, rfl⟩
  rw [← hg] at hbest
  obtain ⟨hg1, hg2, hcell, -⟩ := hbest.cand
  have hcols : S * g.1 / S = g.1 := Nat.mul_div_cancel_left _ hS
  -- every crop succeeds
  have hcrop : ∀ i, i < g.1 * g.2 → ∃ t : Img α, crop (α := α) ⟨S * g.1, S * g.2, 3, res (S * g.1) (S * g.2)⟩ zero fresh
        ((i % (S * g.1 / S) * S : Nat) : Int) ((i / (S * g.1 / S) * S : Nat) : Int) ((i % (S * g.1 / S) * S + S : Nat) : Int)
        ((i / (S * g.1 / S) * S + S : Nat) : Int) = some t ∧ t.w = S ∧ t.h = S ∧ t.c = 3 ∧
      ∀ x y k, x < S → y < S → k < 3 → t.pix x y k = res (S * g.1) (S * g.2) (((i / g.1 * S + y) * (S * g.1) + (i % g.1 * S + x)) * 3 + k) := by
    intro i hi
    obtain ⟨t, e, w1, w2, w3, w4⟩ := C168_crop (α := α) ⟨S * g.1, S * g.2, 3, res (S * g.1) (S * g.2)⟩ rfl zero fresh
      (left := ((i % (S * g.1 / S) * S : Nat) : Int)) (upper := ((i / (S * g.1 / S) * S : Nat) : Int))
      (right := ((i % (S * g.1 / S) * S + S : Nat) : Int)) (lower := ((i / (S * g.1 / S) * S + S : Nat) : Int)) (by omega) (by omega)
    have t1 : t.w = S := by push_cast at w1; omega
    have t2 : t.h = S := by push_cast at w2; omega
    refine ⟨t, e, t1, t2, w3, fun x y k hx hy hk => ?_⟩
    have hxb : i % g.1 * S + x < S * g.1 := by
      have : (i % g.1 + 1) * S ≤ g.1 * S := Nat.mul_le_mul_right _ (Nat.mod_lt _ hg1)
      rw [Nat.succ_mul, Nat.mul_comm g.1] at this
      omega
    have hyb : i / g.1 * S + y < S * g.2 := by
      have hlt : i / g.1 < g.2 := by
        rw [Nat.div_lt_iff_lt_mul hg1, Nat.mul_comm]
        exact hi
      have : (i / g.1 + 1) * S ≤ g.2 * S := Nat.mul_le_mul_right _ hlt
      rw [Nat.succ_mul, Nat.mul_comm g.2] at this
      omega
    have := (w4 x y k (by omega) (by omega) hk).1 (i % g.1 * S + x) (i / g.1 * S + y) (by rw [hcols]; push_cast; rfl) (by rw [hcols]; push_cast; rfl) hxb hyb
    rw [this]
    rfl
  obtain ⟨ts, hts, hlen, hget⟩ := mapM_range (f := fun i => crop (α := α) ⟨S * g.1, S * g.2, 3, res (S * g.1) (S * g.2)⟩ zero fresh
        ((i % (S * g.1 / S) * S : Nat) : Int) ((i / (S * g.1 / S) * S : Nat) : Int) ((i % (S * g.1 / S) * S + S : Nat) : Int)
        ((i / (S * g.1 / S) * S + S : Nat) : Int)) (g.1 * g.2) (fun i hi => by obtain ⟨t, e, -⟩ := hcrop i hi; rw [e]; rfl)
  have hne1 : ts.length ≠ 1 := by omega
  have hout : dynamicPreprocess im zero fresh res S thumb rs = some (if thumb then ts ++ [⟨S, S, 3, res S S⟩] else ts, g) := by
    rw [dynamicPreprocess, if_neg (by omega), ← hg]
    have : tiles (α := α) ⟨S * g.1, S * g.2, 3, res (S * g.1) (S * g.2)⟩ zero fresh S g = some ts := hts
    simp only [this, Option.map_some, ne_eq, hne1, not_false_eq_true, and_true]
  have htile : ∀ i (hi : i < ts.length), ts[i].w = S ∧ ts[i].h = S ∧ ts[i].c = 3 ∧
      ∀ x y k, x < S → y < S → k < 3 → ts[i].pix x y k = res (S * g.1) (S * g.2) (((i / g.1 * S + y) * (S * g.1) + (i % g.1 * S + x)) * 3 + k) := by
    intro i hi
    obtain ⟨t, e, r⟩ := hcrop i (by omega)
    have := hget i hi
    rw [e] at this
    rw [Option.some.injEq] at this
    rw [← this]
    exact r
  refine ⟨_, g, hout, hg, ?_, ?_, ?_, ?_⟩
  · cases thumb <;> simp [hlen]
  · intro i hi
    cases thumb with
    | false => exact ⟨(htile i hi).1, (htile i hi).2.1, (htile i hi).2.2.1⟩
    | true =>
      simp only [if_true] at hi ⊢
      rcases Nat.lt_or_ge i ts.length with hlt | hge
      · rw [List.getElem_append_left hlt]
        exact ⟨(htile i hlt).1, (htile i hlt).2.1, (htile i hlt).2.2.1⟩
      · rw [List.getElem_append_right hge]
        simp
  · intro X Y k hX hY hk
    have hXS : X / S < g.1 := by rw [Nat.div_lt_iff_lt_mul hS, Nat.mul_comm]; exact hX
    have hYS : Y / S < g.2 := by rw [Nat.div_lt_iff_lt_mul hS, Nat.mul_comm]; exact hY
    have hi : Y / S * g.1 + X / S < ts.length := by
      have : (Y / S + 1) * g.1 ≤ g.2 * g.1 := Nat.mul_le_mul_right _ hYS
      rw [Nat.succ_mul, Nat.mul_comm g.2] at this
      omega
    have hpix := (htile _ hi).2.2.2 (X % S) (Y % S) k (Nat.mod_lt _ hS) (Nat.mod_lt _ hS) hk
    rw [show (Y / S * g.1 + X / S) / g.1 = Y / S by rw [Nat.mul_comm, Nat.mul_add_div hg1, Nat.div_eq_of_lt hXS, Nat.add_zero],
      show (Y / S * g.1 + X / S) % g.1 = X / S by rw [Nat.mul_comm, Nat.mul_add_mod, Nat.mod_eq_of_lt hXS],
      Nat.div_add_mod' Y S, Nat.div_add_mod' X S] at hpix
    cases thumb with
    | false => exact ⟨hi, hpix⟩
    | true =>
      refine ⟨by simp; omega, ?_⟩
      simp only [if_true]
      rw [List.getElem_append_left hi]
      exact hpix
  · rintro rfl
    refine ⟨by simp [hlen], ?_⟩
    simp only [if_true]
    rw [List.getElem_append_right (by omega)]
    simp

end Verif.Ocr
