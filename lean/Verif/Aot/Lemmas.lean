import Verif.Aot.Spec

namespace Verif.Aot

/-! ### Cells of a matrix stored row by row -/

theorem cell_iff {w a n i r x : Nat} (hx : x < w) (h : a + n ≤ w) :
    (i * w + a ≤ r * w + x ∧ r * w + x < i * w + a + n) ↔ (r = i ∧ a ≤ x ∧ x < a + n) := by
  rcases lt_trichotomy r i with hr | rfl | hr
  · have : (r + 1) * w ≤ i * w := Nat.mul_le_mul_right _ hr
    rw [Nat.add_mul] at this
    constructor
    · rintro ⟨h1, _⟩; omega
    · rintro ⟨h1, _⟩; omega
  · constructor
    · rintro ⟨h1, h2⟩; exact ⟨rfl, by omega, by omega⟩
    · rintro ⟨_, h1, h2⟩; exact ⟨by omega, by omega⟩
  · have : (i + 1) * w ≤ r * w := Nat.mul_le_mul_right _ hr
    rw [Nat.add_mul] at this
    constructor
    · rintro ⟨_, h2⟩; omega
    · rintro ⟨h1, _⟩; omega

theorem cell_eq {w i r x y : Nat} (hx : x < w) (hy : y < w) : i * w + y = r * w + x ↔ r = i ∧ x = y := by
  have := cell_iff (w := w) (a := y) (n := 1) (i := i) (r := r) hx (by omega)
  constructor
  · intro h
    obtain ⟨h1, h2, h3⟩ := this.1 ⟨by omega, by omega⟩
    exact ⟨h1, by omega⟩
  · rintro ⟨rfl, rfl⟩; rfl

theorem row_le {R w r n : Nat} (hr : r < R) (hn : n ≤ w) : r * w + n ≤ R * w := by
  have : (r + 1) * w ≤ R * w := Nat.mul_le_mul_right _ hr
  rw [Nat.add_mul] at this
  omega

/-! ### Primitives -/

theorem copy_some {α : Type} {dst src : Mem α} {capD wp capS rp n : Nat} (h1 : wp + n ≤ capD) (h2 : rp + n ≤ capS) :
    copy dst capD wp src capS rp n = some (fun i => if wp ≤ i ∧ i < wp + n then src (rp + (i - wp)) else dst i) := by
  unfold copy; rw [if_pos ⟨h1, h2⟩]

theorem fillN_some {m : Mem Bool} {cap p n : Nat} {v : Bool} (h : p + n ≤ cap) :
    fillN m cap p (n : Int) v = some (fun i => if p ≤ i ∧ i < p + n then v else m i) := by
  unfold fillN
  by_cases h0 : n = 0
  · subst h0
    rw [if_pos (by simp)]
    congr 1
    funext i
    rw [if_neg (by omega)]
  · rw [if_neg (by omega), Int.toNat_natCast, if_pos h]

theorem eachLayer_some {L : Nat} {β : Type} {f : Fin L → Option β} {g : Fin L → β} (h : ∀ l, f l = some (g l)) :
    eachLayer f = some g := by
  unfold eachLayer
  have : ∀ l, (f l).isSome := fun l => by rw [h l]; rfl
  rw [dif_pos this]
  congr 1
  funext l
  simp [h l]

theorem eachLayer_spec {L : Nat} {β : Type} {f : Fin L → Option β} {P : Fin L → β → Prop} (h : ∀ l, ∃ b, f l = some b ∧ P l b) :
    ∃ g, eachLayer f = some g ∧ ∀ l, P l (g l) := by
  choose g h1 h2 using h
  exact ⟨g, eachLayer_some h1, h2⟩

theorem eachLayer_none {L : Nat} {β : Type} {f : Fin L → Option β} (l : Fin L) (h : f l = none) : eachLayer f = none := by
  unfold eachLayer
  rw [dif_neg]
  intro hh
  have := hh l
  rw [h] at this
  cases this

/-- An invariant of a loop. -/
theorem loop_spec {σ : Type} {f : Nat → σ → Option σ} {I : Nat → σ → Prop} {s : σ} : ∀ n, I 0 s →
    (∀ i t, i < n → I i t → ∃ t', f i t = some t' ∧ I (i + 1) t') → ∃ t, loop f n s = some t ∧ I n t
  | 0, h0, _ => ⟨s, rfl, h0⟩
  | n + 1, h0, hs => by
    obtain ⟨t, h1, h2⟩ := loop_spec n h0 (fun i t hi => hs i t (by omega))
    obtain ⟨t', h3, h4⟩ := hs n t (by omega) h2
    exact ⟨t', by show (loop f n s).bind (f n) = _; rw [h1]; exact h3, h4⟩

/-! ### The copying loops -/

theorem copyRows_spec {α : Type} {capD capS : Nat} {out m : Mem α} {R past iter size n : Nat} (h1 : past + n ≤ iter)
    (h2 : n ≤ size) (hD : R * iter ≤ capD) (hS : R * size ≤ capS) :
    ∃ m', copyRows capD capS out R past iter size n m = some m' ∧
      ∀ r x, r < R → x < iter →
        m' (r * iter + x) = if past ≤ x ∧ x < past + n then out (r * size + (x - past)) else m (r * iter + x) := by
  unfold copyRows
  obtain ⟨t, e, h⟩ := loop_spec (f := fun i m => copy m capD (past + i * iter) out capS (i * size) n)
    (I := fun k t => ∀ r x, r < R → x < iter → t (r * iter + x) =
      if r < k ∧ past ≤ x ∧ x < past + n then out (r * size + (x - past)) else m (r * iter + x)) (s := m) R
    (by intro r x _ _; rw [if_neg (by omega)])
    (by
      intro i t hi ih
      have a1 := row_le hi h1
      have a2 := row_le hi h2
      refine ⟨_, copy_some (by omega) (by omega), ?_⟩
      intro r x hr hx
      have hc := cell_iff (i := i) (r := r) hx h1
      by_cases hin : r = i ∧ past ≤ x ∧ x < past + n
      · have := hc.2 hin
        rw [if_pos (by omega), if_pos (by omega)]
        obtain ⟨rfl, b1, b2⟩ := hin
        congr 1
        omega
      · have h' := mt hc.1 hin
        rw [if_neg (by omega), ih r x hr hx]
        by_cases hk : r < i ∧ past ≤ x ∧ x < past + n
        · rw [if_pos hk, if_pos (by omega)]
        · rw [if_neg hk, if_neg (by omega)])
  refine ⟨t, e, fun r x hr hx => ?_⟩
  rw [h r x hr hx]
  by_cases hk : past ≤ x ∧ x < past + n
  · rw [if_pos hk, if_pos ⟨hr, hk⟩]
  · rw [if_neg hk, if_neg (fun h => hk h.2)]

/-- Rearranging keeps the first `min src dst` elements of every row. -/
theorem moveRows_spec {α : Type} {cap R src dst : Nat} {m : Mem α} (hs : R * src ≤ cap) (hd : R * dst ≤ cap) :
    ∃ m', moveRows cap R src dst m = some m' ∧
      ∀ r x, r < R → x < src → x < dst → m' (r * dst + x) = m (r * src + x) := by
  unfold moveRows
  by_cases h : dst < src
  · rw [if_pos h]
    obtain ⟨t, e, hI⟩ := loop_spec (f := fun i m => copy m cap (i * dst) m cap (i * src) dst)
      (I := fun k t => (∀ r x, r < k → x < dst → t (r * dst + x) = m (r * src + x)) ∧
        ∀ y, k * src ≤ y → t y = m y) (s := m) R
      ⟨by intro r x h; omega, fun _ _ => rfl⟩
      (by
        rintro i t hi ⟨i1, i2⟩
        have a1 := row_le hi (Nat.le_refl dst)
        have a2 := row_le hi (Nat.le_of_lt h)
        refine ⟨_, copy_some (by omega) (by omega), ?_, ?_⟩
        · intro r x hr hx
          have hc := cell_iff (a := 0) (n := dst) (i := i) (r := r) hx (by omega)
          by_cases hin : r = i
          · subst hin
            rw [if_pos (by omega), i2 _ (by omega)]
            congr 1; omega
          · have := mt hc.1 (by omega)
            rw [if_neg (by omega)]
            exact i1 r x (by omega) hx
        · intro y hy
          have e1 : (i + 1) * src = i * src + src := by ring
          have e2 : i * dst ≤ i * src := Nat.mul_le_mul_left _ (Nat.le_of_lt h)
          rw [if_neg (by omega)]
          exact i2 y (by omega))
    exact ⟨t, e, fun r x hr _ hx => hI.1 r x hr hx⟩
  · rw [if_neg h]
    push Not at h
    obtain ⟨t, e, hI⟩ := loop_spec
      (f := fun i m => copy m cap ((R - 1 - i) * dst) m cap ((R - 1 - i) * src) src)
      (I := fun k t => (∀ r x, r < R → R ≤ r + k → x < src → t (r * dst + x) = m (r * src + x)) ∧
        ∀ y, y < (R - k) * src → t y = m y) (s := m) R
      ⟨by intro r x _ h; omega, fun _ _ => rfl⟩
      (by
        rintro i t hi ⟨i1, i2⟩
        obtain ⟨q, hq⟩ : ∃ q, q = R - 1 - i := ⟨_, rfl⟩
        have hqR : q < R := by omega
        have a1 := row_le hqR h
        have a2 := row_le hqR (Nat.le_refl src)
        rw [← hq]
        refine ⟨_, copy_some (by omega) (by omega), ?_, ?_⟩
        · intro r x hr hk hx
          have hc := cell_iff (w := dst) (a := 0) (n := src) (i := q) (r := r) (x := x) (by omega) (by omega)
          by_cases hin : r = q
          · subst hin
            have e1 : (R - i) * src = r * src + src := by rw [show R - i = r + 1 by omega]; ring
            rw [if_pos (by omega), i2 _ (by omega)]
            congr 1; omega
          · have := mt hc.1 (by omega)
            rw [if_neg (by omega)]
            exact i1 r x hr (by omega) hx
        · intro y hy
          have e1 : (R - (i + 1)) * src = q * src := by rw [show R - (i + 1) = q by omega]
          have e2 : q * src ≤ q * dst := Nat.mul_le_mul_left _ h
          have e3 : (R - i) * src = q * src + src := by rw [show R - i = q + 1 by omega]; ring
          rw [if_neg (by omega)]
          exact i2 y (by omega))
    exact ⟨t, e, fun r x hr hx _ => hI.1 r x hr (by omega) hx⟩

/-! ### What the cache holds -/

/-- The cache, arranged in `S` columns, holds these entries in its first columns. -/
def Holds {c : Cfg} {α : Type} (S : Nat) (s : Mgr c α) (hist : List (Ent c α)) : Prop :=
  ∀ j (h : j < hist.length), pastEnt S s.k s.v j = hist[j]

theorem ent_row {c : Cfg} (h : Fin c.heads) (d : Fin c.dim) : (h : Nat) * c.dim + d < c.dim * c.heads := by
  have := row_le h.2 (show (d : Nat) + 1 ≤ c.dim from d.2)
  rw [Nat.mul_comm c.dim]
  omega

theorem val_cell (h S j D d : Nat) : (h * S + j) * D + d = h * (S * D) + (j * D + d) := by ring

theorem val_off {j S D d : Nat} (hj : j < S) (hd : d < D) : j * D + d < S * D := by
  have := row_le hj (show d + 1 ≤ D from hd); omega

theorem update_spec {c : Cfg} {α : Type} {s : Mgr c α} {kout vout : Fin c.layers → Mem α} {past n : Nat}
    (h1 : past + n ≤ c.cols s.cur) (h2 : n ≤ s.cur) (hin : c.cols s.cur ≤ c.maxCache) (hout : s.cur ≤ c.maxAr) :
    ∃ s', s.update kout vout s.cur past n [] = some s' ∧ s'.cur = s.cur ∧
      ∀ j, j < c.cols s.cur → pastEnt (c.cols s.cur) s'.k s'.v j =
        if past ≤ j ∧ j < past + n then pastEnt s.cur kout vout (j - past) else pastEnt (c.cols s.cur) s.k s.v j := by
  obtain ⟨S, hS⟩ : ∃ S, S = c.cols s.cur := ⟨_, rfl⟩
  rw [← hS] at h1 hin ⊢
  have hk : ∀ l : Fin c.layers, ∃ m', updateKey c s.cur (kout l) past n [] (s.k l) = some m' ∧
      ∀ r x, r < c.dim * c.heads → x < S →
        m' (r * S + x) = if past ≤ x ∧ x < past + n then kout l (r * s.cur + (x - past)) else s.k l (r * S + x) := by
    intro l
    unfold updateKey
    rw [if_pos rfl, ← hS]
    refine copyRows_spec h1 h2 ?_ ?_
    · unfold Cfg.capIn; rw [Nat.mul_comm c.heads]; exact Nat.mul_le_mul_left _ hin
    · unfold Cfg.capOut; rw [Nat.mul_comm c.heads]; exact Nat.mul_le_mul_left _ hout
  have hv : ∀ l : Fin c.layers, ∃ m', updateValue c s.cur (vout l) past n [] (s.v l) = some m' ∧
      ∀ r x, r < c.heads → x < S * c.dim →
        m' (r * (S * c.dim) + x) = if past * c.dim ≤ x ∧ x < past * c.dim + n * c.dim then vout l (r * (s.cur * c.dim) + (x - past * c.dim))
          else s.v l (r * (S * c.dim) + x) := by
    intro l
    unfold updateValue
    rw [if_pos rfl, ← hS]
    refine copyRows_spec ?_ (Nat.mul_le_mul_right _ h2) ?_ ?_
    · rw [← Nat.add_mul]; exact Nat.mul_le_mul_right _ h1
    · unfold Cfg.capIn; rw [Nat.mul_comm S, ← Nat.mul_assoc]; exact Nat.mul_le_mul_left _ hin
    · unfold Cfg.capOut; rw [Nat.mul_comm s.cur, ← Nat.mul_assoc]; exact Nat.mul_le_mul_left _ hout
  obtain ⟨k, k1, k2⟩ := eachLayer_spec hk
  obtain ⟨v, v1, v2⟩ := eachLayer_spec hv
  refine ⟨⟨s.cur, k, v⟩, ?_, rfl, ?_⟩
  · unfold Mgr.update
    rw [if_neg (by simp), k1, v1]
    rfl
  · intro j hj
    funext l h d
    have e1 := k2 l _ j (ent_row h d) hj
    have e2 := v2 l h (j * c.dim + d) h.2 (val_off hj d.2)
    have hdd := d.2
    rw [← val_cell] at e2
    by_cases hc : past ≤ j ∧ j < past + n
    · have b1 : past * c.dim ≤ j * c.dim := Nat.mul_le_mul_right _ hc.1
      have b2 : j * c.dim + d < (past + n) * c.dim := val_off hc.2 d.2
      rw [Nat.add_mul] at b2
      rw [if_pos hc] at e1 ⊢
      rw [if_pos ⟨by omega, by omega⟩] at e2
      show (k l _, v l _) = (kout l _, vout l _)
      rw [e1, e2, val_cell h s.cur, Nat.sub_mul]
      rw [show j * c.dim + (d : Nat) - past * c.dim = j * c.dim - past * c.dim + d by omega]
    · have : ¬ (past * c.dim ≤ j * c.dim + d ∧ j * c.dim + d < past * c.dim + n * c.dim) := by
        rintro ⟨b1, b2⟩
        rw [← Nat.add_mul] at b2
        apply hc
        constructor
        · by_contra hlt
          push Not at hlt
          have := val_off hlt d.2
          omega
        · by_contra hge
          push Not at hge
          have := Nat.mul_le_mul_right c.dim hge
          omega
      rw [if_neg hc] at e1 ⊢
      rw [if_neg this] at e2
      show (k l _, v l _) = (s.k l _, s.v l _)
      rw [e1, e2]

/-- Rearranging keeps every column that fits both arrangements. -/
theorem rearrange_spec {c : Cfg} {α : Type} {s : Mgr c α} {dst : Nat} (h1 : c.cols s.cur ≤ c.maxCache) (h2 : c.ctx - dst ≤ c.maxCache) :
    ∃ s', s.rearrange dst = some s' ∧ s'.cur = dst ∧
      ∀ j, j < c.cols s.cur → j < c.ctx - dst → pastEnt (c.cols dst) s'.k s'.v j = pastEnt (c.cols s.cur) s.k s.v j := by
  unfold Mgr.rearrange
  by_cases he : s.cur = dst
  · rw [if_pos he]
    exact ⟨s, rfl, he, fun j _ _ => by rw [he]⟩
  · rw [if_neg he]
    have hk : ∀ l : Fin c.layers, ∃ m', rearrangeKey c s.cur dst (s.k l) = some m' ∧
        ∀ r x, r < c.dim * c.heads → x < c.cols s.cur → x < c.ctx - dst → m' (r * (c.ctx - dst) + x) = s.k l (r * c.cols s.cur + x) := by
      intro l
      refine moveRows_spec ?_ ?_
      · unfold Cfg.capIn; rw [Nat.mul_comm c.heads]; exact Nat.mul_le_mul_left _ h1
      · unfold Cfg.capIn; rw [Nat.mul_comm c.heads]; exact Nat.mul_le_mul_left _ h2
    have hv : ∀ l : Fin c.layers, ∃ m', rearrangeValue c s.cur dst (s.v l) = some m' ∧
        ∀ r x, r < c.heads → x < c.cols s.cur * c.dim → x < (c.ctx - dst) * c.dim →
          m' (r * ((c.ctx - dst) * c.dim) + x) = s.v l (r * (c.cols s.cur * c.dim) + x) := by
      intro l
      refine moveRows_spec ?_ ?_
      · unfold Cfg.capIn; rw [Nat.mul_comm (c.cols s.cur), ← Nat.mul_assoc]; exact Nat.mul_le_mul_left _ h1
      · unfold Cfg.capIn; rw [Nat.mul_comm (c.ctx - dst), ← Nat.mul_assoc]; exact Nat.mul_le_mul_left _ h2
    obtain ⟨k, k1, k2⟩ := eachLayer_spec hk
    obtain ⟨v, v1, v2⟩ := eachLayer_spec hv
    refine ⟨⟨dst, k, v⟩, ?_, rfl, ?_⟩
    · rw [k1, v1]; rfl
    · intro j hj hj'
      have hcol : c.cols dst = c.ctx - dst := by
        unfold Cfg.cols
        rw [if_neg (by omega)]
      rw [hcol]
      funext l h d
      have e1 := k2 l _ j (ent_row h d) hj hj'
      have e2 := v2 l h (j * c.dim + d) h.2 (val_off hj d.2) (val_off hj' d.2)
      rw [← val_cell, ← val_cell] at e2
      show (k l _, v l _) = (s.k l _, s.v l _)
      rw [e1, e2]

end Verif.Aot
