import Verif.Prelude
import Verif.Buddy.Model
import Mathlib.Data.Nat.Bitwise
import Mathlib.Algebra.BigOperators.Group.Finset.Basic
import Mathlib.Order.Interval.Finset.Nat
/-
Invariant of one buddy segment.
-/
namespace Verif.Buddy

/-- a well-formed block of a segment of capacity `2^M` with orders `m..M` -/
structure InSeg (m M : Nat) (b : Block) : Prop where
  size : b.size = 2 ^ b.order
  dvd : 2 ^ b.order ∣ b.off
  fits : b.off + b.size ≤ 2 ^ M
  lo : m ≤ b.order
  hi : b.order ≤ M

def Disj (b c : Block) : Prop := b.off + b.size ≤ c.off ∨ c.off + c.size ≤ b.off

/-- free lists `f` and busy blocks `L` tile the segment -/
structure Tile (m M : Nat) (f : Nat → List Block) (L : List Block) : Prop where
  fr : ∀ k b, b ∈ f k → b.order = k ∧ InSeg m M b
  lv : ∀ b ∈ L, InSeg m M b
  ndf : ∀ k, (f k).Nodup
  ndl : L.Nodup
  ex : ∀ k b, b ∈ f k → b ∉ L
  dj : ∀ b c, ((∃ k, b ∈ f k) ∨ b ∈ L) → ((∃ k, c ∈ f k) ∨ c ∈ L) → b ≠ c → Disj b c
  cov : ∀ x, x < 2 ^ M → ∃ b, ((∃ k, b ∈ f k) ∨ b ∈ L) ∧ b.off ≤ x ∧ x < b.off + b.size

/-- no two free buddies -/
def NB (M : Nat) (f : Nat → List Block) : Prop :=
  ∀ k, k < M → ∀ b ∈ f k, ∀ c ∈ f k, c.off ≠ b.off ^^^ 2 ^ k

theorem xor_pow (k m : Nat) : (m * 2 ^ k) ^^^ 2 ^ k = (m ^^^ 1) * 2 ^ k := by
  rw [← Nat.shiftLeft_eq, ← Nat.shiftLeft_eq, Nat.shiftLeft_xor_distrib]
  congr 1
  rw [Nat.shiftLeft_eq, Nat.one_mul]

theorem buddy_cases (k a : Nat) (h : 2 ^ k ∣ a) :
    (2 ^ (k + 1) ∣ a ∧ a ^^^ 2 ^ k = a + 2 ^ k) ∨
    (2 ^ k ≤ a ∧ 2 ^ (k + 1) ∣ a - 2 ^ k ∧ a ^^^ 2 ^ k = a - 2 ^ k) := by
  obtain ⟨m, rfl⟩ := h
  have hp : 0 < 2 ^ k := Nat.two_pow_pos k
  rw [Nat.mul_comm, xor_pow]
  rcases Nat.even_or_odd m with hm | hm
  · left
    rw [Nat.xor_one_of_even hm, Nat.add_mul, Nat.one_mul]
    obtain ⟨j, rfl⟩ := hm
    exact ⟨⟨j, by rw [pow_succ]; ring⟩, rfl⟩
  · right
    rw [Nat.xor_one_of_odd hm]
    obtain ⟨j, rfl⟩ := hm
    refine ⟨?_, ⟨j, ?_⟩, ?_⟩
    · nlinarith
    · rw [pow_succ, show (2 * j + 1) * 2 ^ k = 2 ^ k * 2 * j + 2 ^ k by ring]; omega
    · rw [show (2 * j + 1) * 2 ^ k = 2 ^ k * 2 * j + 2 ^ k by ring,
        show (2 * j + 1 - 1) * 2 ^ k = 2 ^ k * 2 * j by
          rw [Nat.add_sub_cancel]; ring]; omega

theorem xor_inv (a b k : Nat) : a = b ^^^ 2 ^ k ↔ b = a ^^^ 2 ^ k := by
  constructor <;> rintro rfl <;> rw [Nat.xor_assoc, Nat.xor_self, Nat.xor_zero]

theorem InSeg.pos {m M : Nat} {b : Block} (h : InSeg m M b) : 0 < b.size := by
  rw [h.size]; exact Nat.two_pow_pos _

theorem mem_setF {f : Nat → List Block} {k j : Nat} {l : List Block} {b : Block} :
    b ∈ setF f k l j ↔ (j = k ∧ b ∈ l) ∨ (j ≠ k ∧ b ∈ f j) := by
  unfold setF; split <;> simp_all

theorem Tile.perm {m M f L L'} (h : Tile m M f L) (hp : L.Perm L') : Tile m M f L' where
  fr := h.fr
  lv b hb := h.lv b (hp.mem_iff.mpr hb)
  ndf := h.ndf
  ndl := hp.nodup_iff.mp h.ndl
  ex k b hb hl := h.ex k b hb (hp.mem_iff.mpr hl)
  dj b c hb hc := h.dj b c (hb.imp id hp.mem_iff.mpr) (hc.imp id hp.mem_iff.mpr)
  cov x hx := by
    obtain ⟨b, hb, h1⟩ := h.cov x hx
    exact ⟨b, hb.imp id hp.mem_iff.mp, h1⟩

/-- give a busy block back without merging -/
theorem Tile.push {m M f L b} (h : Tile m M f (b :: L)) :
    Tile m M (setF f b.order (f b.order ++ [b])) L := by
  have hmem : ∀ j x, x ∈ setF f b.order (f b.order ++ [b]) j ↔ x ∈ f j ∨ (j = b.order ∧ x = b) := by
    intro j x
    rw [mem_setF]
    by_cases hj : j = b.order
    · subst hj; simp
    · simp [hj]
  have hall : ∀ x, ((∃ k, x ∈ setF f b.order (f b.order ++ [b]) k) ∨ x ∈ L) ↔
      ((∃ k, x ∈ f k) ∨ x ∈ b :: L) := by
    intro x
    simp only [hmem, List.mem_cons]
    constructor
    · rintro (⟨k, hk | hk⟩ | hl)
      · exact Or.inl ⟨k, hk⟩
      · exact Or.inr (Or.inl hk.2)
      · exact Or.inr (Or.inr hl)
    · rintro (⟨k, hk⟩ | rfl | hl)
      · exact Or.inl ⟨k, Or.inl hk⟩
      · exact Or.inl ⟨x.order, Or.inr ⟨rfl, rfl⟩⟩
      · exact Or.inr hl
  have hnd := h.ndl
  rw [List.nodup_cons] at hnd
  refine ⟨?_, fun x hx => h.lv x (by simp [hx]), ?_, hnd.2, ?_, ?_, ?_⟩
  · intro k x hx
    rcases (hmem k x).mp hx with hx | ⟨rfl, rfl⟩
    · exact h.fr k x hx
    · exact ⟨rfl, h.lv x (by simp)⟩
  · intro k
    unfold setF
    split
    · rw [List.nodup_append]
      refine ⟨h.ndf _, by simp, ?_⟩
      intro a ha c hc
      simp at hc
      subst hc
      rintro rfl
      exact h.ex _ _ ha (by simp)
    · exact h.ndf k
  · intro k x hx hl
    rcases (hmem k x).mp hx with hx | ⟨rfl, rfl⟩
    · exact h.ex k x hx (by simp [hl])
    · exact hnd.1 hl
  · intro x y hx hy
    exact h.dj x y ((hall x).mp hx) ((hall y).mp hy)
  · intro x hx
    obtain ⟨c, hc, h1⟩ := h.cov x hx
    exact ⟨c, (hall c).mpr hc, h1⟩

/-- take a free block without splitting -/
theorem Tile.pop {m M f L k b tl} (h : Tile m M f L) (hk : f k = b :: tl) :
    Tile m M (setF f k tl) (b :: L) := by
  have hbk : b ∈ f k := by rw [hk]; simp
  have hnd := h.ndf k
  rw [hk, List.nodup_cons] at hnd
  have hord := (h.fr k b hbk).1
  have hmem : ∀ j x, x ∈ setF f k tl j ↔ x ∈ f j ∧ x ≠ b := by
    intro j x
    rw [mem_setF]
    by_cases hj : j = k
    · subst hj
      simp only [hk, List.mem_cons, true_and, ne_eq, not_true_eq_false, false_and, or_false]
      constructor
      · intro hx; exact ⟨Or.inr hx, fun e => hnd.1 (e ▸ hx)⟩
      · rintro ⟨rfl | hx, hne⟩
        · exact absurd rfl hne
        · exact hx
    · simp only [hj, false_and, ne_eq, not_false_eq_true, true_and, false_or]
      constructor
      · intro hx
        refine ⟨hx, ?_⟩
        rintro rfl
        have := (h.fr j x hx).1
        omega
      · exact fun hx => hx.1
  have hall : ∀ x, ((∃ j, x ∈ setF f k tl j) ∨ x ∈ b :: L) ↔ ((∃ j, x ∈ f j) ∨ x ∈ L) := by
    intro x
    simp only [hmem, List.mem_cons]
    constructor
    · rintro (⟨j, hj, _⟩ | rfl | hl)
      · exact Or.inl ⟨j, hj⟩
      · exact Or.inl ⟨k, hbk⟩
      · exact Or.inr hl
    · rintro (⟨j, hj⟩ | hl)
      · by_cases hxb : x = b
        · exact Or.inr (Or.inl hxb)
        · exact Or.inl ⟨j, hj, hxb⟩
      · exact Or.inr (Or.inr hl)
  refine ⟨fun j x hx => h.fr j x ((hmem j x).mp hx).1, ?_, ?_, ?_, ?_, ?_, ?_⟩
  · intro x hx
    rcases List.mem_cons.mp hx with rfl | hx
    · exact (h.fr k x hbk).2
    · exact h.lv x hx
  · intro j
    unfold setF
    split
    · exact hnd.2
    · exact h.ndf j
  · rw [List.nodup_cons]; exact ⟨h.ex k b hbk, h.ndl⟩
  · intro j x hx hl
    obtain ⟨h1, h2⟩ := (hmem j x).mp hx
    rcases List.mem_cons.mp hl with hl | hl
    · exact h2 hl
    · exact h.ex j x h1 hl
  · intro x y hx hy
    exact h.dj x y ((hall x).mp hx) ((hall y).mp hy)
  · intro x hx
    obtain ⟨c, hc, h1⟩ := h.cov x hx
    exact ⟨c, (hall c).mpr hc, h1⟩

/-- replace one busy block by two busy halves -/
theorem Tile.halve {m M f L b} (h : Tile m M f (b :: L)) (hb : m < b.order) :
    Tile m M f (⟨b.off + b.size / 2, b.size / 2, b.order - 1⟩ ::
      ⟨b.off, b.size / 2, b.order - 1⟩ :: L) := by
  have hin := h.lv b (by simp)
  obtain ⟨o, ho⟩ : ∃ o, b.order = o + 1 := ⟨b.order - 1, by omega⟩
  have hs : b.size / 2 = 2 ^ o := by rw [hin.size, ho, pow_succ]; omega
  have hs2 : b.size = 2 ^ o + 2 ^ o := by rw [hin.size, ho, pow_succ]; omega
  have hpos : 0 < 2 ^ o := Nat.two_pow_pos o
  have hd : 2 ^ o ∣ b.off := dvd_trans (pow_dvd_pow 2 (by omega)) hin.dvd
  have hfit := hin.fits
  have hhi := hin.hi
  rw [hs, ho, Nat.add_sub_cancel]
  have i1 : InSeg m M ⟨b.off, 2 ^ o, o⟩ := ⟨rfl, hd, by simp; omega, by simp; omega, by simp; omega⟩
  have i2 : InSeg m M ⟨b.off + 2 ^ o, 2 ^ o, o⟩ :=
    ⟨rfl, (Nat.dvd_add_right hd).mpr dvd_rfl, by simp; omega, by simp; omega, by simp; omega⟩
  have hnd := h.ndl
  rw [List.nodup_cons] at hnd
  have hbs : ∀ x : Block, ((∃ k, x ∈ f k) ∨ x ∈ L) → Disj b x := by
    intro x hx
    refine h.dj b x (Or.inr (by simp)) (hx.imp id (by simp +contextual)) ?_
    rintro rfl
    rcases hx with ⟨k, hk⟩ | hl
    · exact h.ex k b hk (by simp)
    · exact hnd.1 hl
  have hpx : ∀ x : Block, ((∃ k, x ∈ f k) ∨ x ∈ L) → 0 < x.size := by
    rintro x (⟨k, hk⟩ | hl)
    · exact (h.fr k x hk).2.pos
    · exact (h.lv x (by simp [hl])).pos
  have key : ∀ x : Block, ((∃ k, x ∈ f k) ∨ x ∈ L) →
      Disj ⟨b.off, 2 ^ o, o⟩ x ∧ Disj ⟨b.off + 2 ^ o, 2 ^ o, o⟩ x := by
    intro x hx
    have h1 := hbs x hx
    have h2 := hpx x hx
    unfold Disj at h1 ⊢
    simp only
    omega
  have hsym : ∀ x y, Disj x y → Disj y x := fun x y h => h.symm
  have hne : ∀ x : Block, 0 < x.size → ∀ y, y = x → ¬ Disj x y := by
    rintro x hx y rfl hd; unfold Disj at hd; omega
  refine ⟨h.fr, ?_, h.ndf, ?_, ?_, ?_, ?_⟩
  · intro x hx
    simp only [List.mem_cons] at hx
    rcases hx with rfl | rfl | hx
    · exact i2
    · exact i1
    · exact h.lv x (by simp [hx])
  · simp only [List.nodup_cons, List.mem_cons, not_or]
    refine ⟨⟨by simp, fun hl => ?_⟩, fun hl => ?_, hnd.2⟩
    · exact hne _ i2.pos _ rfl (key _ (Or.inr hl)).2
    · exact hne _ i1.pos _ rfl (key _ (Or.inr hl)).1
  · intro k x hx hl
    simp only [List.mem_cons] at hl
    rcases hl with rfl | rfl | hl
    · exact hne _ i2.pos _ rfl (key _ (Or.inl ⟨k, hx⟩)).2
    · exact hne _ i1.pos _ rfl (key _ (Or.inl ⟨k, hx⟩)).1
    · exact h.ex k x hx (by simp [hl])
  · have split3 : ∀ x : Block, ((∃ k, x ∈ f k) ∨ x ∈ (⟨b.off + 2 ^ o, 2 ^ o, o⟩ : Block) ::
        (⟨b.off, 2 ^ o, o⟩ : Block) :: L) →
        x = ⟨b.off + 2 ^ o, 2 ^ o, o⟩ ∨ x = ⟨b.off, 2 ^ o, o⟩ ∨ ((∃ k, x ∈ f k) ∨ x ∈ L) := by
      intro x hx
      simp only [List.mem_cons] at hx
      tauto
    intro x y hx hy hxy
    rcases split3 x hx with rfl | rfl | hx' <;> rcases split3 y hy with rfl | rfl | hy'
    · exact absurd rfl hxy
    · right; simp
    · exact (key y hy').2
    · left; simp
    · exact absurd rfl hxy
    · exact (key y hy').1
    · exact hsym _ _ (key x hx').2
    · exact hsym _ _ (key x hx').1
    · exact h.dj x y (hx'.imp id (by simp +contextual)) (hy'.imp id (by simp +contextual)) hxy
  · intro x hx
    obtain ⟨c, hc, h1, h2⟩ := h.cov x hx
    by_cases hcb : c = b
    · subst hcb
      by_cases hx2 : x < c.off + 2 ^ o
      · exact ⟨⟨c.off, 2 ^ o, o⟩, by simp, h1, hx2⟩
      · exact ⟨⟨c.off + 2 ^ o, 2 ^ o, o⟩, by simp, by simp; omega, by simp; omega⟩
    · refine ⟨c, ?_, h1, h2⟩
      rcases hc with hc | hc
      · exact Or.inl hc
      · right
        rcases List.mem_cons.mp hc with hc | hc
        · exact absurd hc hcb
        · simp [hc]

/-- replace two busy buddies by their union -/
theorem Tile.join {m M f L b c} (h : Tile m M f (c :: b :: L)) (ho : c.order = b.order)
    (hx : c.off = b.off ^^^ 2 ^ b.order) :
    Tile m M f ((if b.off < c.off then (⟨b.off, b.size * 2, b.order + 1⟩ : Block)
      else ⟨c.off, b.size * 2, b.order + 1⟩) :: L) := by
  have ib := h.lv b (by simp)
  have ic := h.lv c (by simp)
  have hnd := h.ndl
  simp only [List.nodup_cons, List.mem_cons, not_or] at hnd
  obtain ⟨⟨hcb, hcL⟩, hbL, hL⟩ := hnd
  have hpos : 0 < 2 ^ b.order := Nat.two_pow_pos _
  have hsb := ib.size
  have hsc := ic.size
  rw [ho] at hsc
  have hfb := ib.fits
  have hfc := ic.fits
  -- the union
  obtain ⟨u, hu, hud, hub, huc⟩ : ∃ u, (if b.off < c.off then (⟨b.off, b.size * 2, b.order + 1⟩ : Block)
      else ⟨c.off, b.size * 2, b.order + 1⟩) = ⟨u, 2 ^ (b.order + 1), b.order + 1⟩ ∧
      2 ^ (b.order + 1) ∣ u ∧ ((b.off = u ∧ c.off = u + 2 ^ b.order) ∨
        (c.off = u ∧ b.off = u + 2 ^ b.order)) ∧ True := by
    rcases buddy_cases b.order b.off ib.dvd with ⟨h1, h2⟩ | ⟨h1, h2, h3⟩
    · refine ⟨b.off, ?_, h1, Or.inl ⟨rfl, by omega⟩, trivial⟩
      rw [if_pos (by omega), hsb, pow_succ]
    · refine ⟨c.off, ?_, ?_, Or.inr ⟨rfl, by omega⟩, trivial⟩
      · rw [if_neg (by omega), hsb, pow_succ]
      · rw [hx, h3]; exact h2
  rw [hu]
  have hpow : 2 ^ (b.order + 1) = 2 ^ b.order + 2 ^ b.order := by rw [pow_succ]; omega
  have hle : b.order + 1 ≤ M := by
    by_contra hlt
    have : M ≤ b.order := by omega
    have := Nat.pow_le_pow_right (n := 2) (by omega) this
    omega
  have iu : InSeg m M ⟨u, 2 ^ (b.order + 1), b.order + 1⟩ :=
    ⟨rfl, hud, by simp only; omega, by have := ib.lo; simp only; omega, hle⟩
  have hdb : ∀ x : Block, ((∃ k, x ∈ f k) ∨ x ∈ L) → Disj b x ∧ Disj c x ∧ 0 < x.size := by
    intro x hx'
    have hxm : (∃ k, x ∈ f k) ∨ x ∈ c :: b :: L := hx'.imp id (by simp +contextual)
    refine ⟨h.dj b x (Or.inr (by simp)) hxm ?_, h.dj c x (Or.inr (by simp)) hxm ?_, ?_⟩
    · rintro rfl
      rcases hx' with ⟨k, hk⟩ | hl
      · exact h.ex k b hk (by simp)
      · exact hbL hl
    · rintro rfl
      rcases hx' with ⟨k, hk⟩ | hl
      · exact h.ex k c hk (by simp)
      · exact hcL hl
    · rcases hx' with ⟨k, hk⟩ | hl
      · exact (h.fr k x hk).2.pos
      · exact (h.lv x (by simp [hl])).pos
  have key : ∀ x : Block, ((∃ k, x ∈ f k) ∨ x ∈ L) → Disj ⟨u, 2 ^ (b.order + 1), b.order + 1⟩ x := by
    intro x hx'
    obtain ⟨h1, h2, h3⟩ := hdb x hx'
    unfold Disj at *
    simp only
    omega
  have hne : ∀ x : Block, 0 < x.size → ¬ Disj x x := by
    intro x hx hd; unfold Disj at hd; omega
  refine ⟨h.fr, ?_, h.ndf, ?_, ?_, ?_, ?_⟩
  · intro x hx
    rcases List.mem_cons.mp hx with rfl | hx
    · exact iu
    · exact h.lv x (by simp [hx])
  · rw [List.nodup_cons]
    exact ⟨fun hl => hne _ iu.pos (key _ (Or.inr hl)), hL⟩
  · intro k x hx hl
    rcases List.mem_cons.mp hl with rfl | hl
    · exact hne _ iu.pos (key _ (Or.inl ⟨k, hx⟩))
    · exact h.ex k x hx (by simp [hl])
  · intro x y hx' hy' hxy
    have s3 : ∀ z : Block, ((∃ k, z ∈ f k) ∨ z ∈ (⟨u, 2 ^ (b.order + 1), b.order + 1⟩ : Block) :: L) →
        z = ⟨u, 2 ^ (b.order + 1), b.order + 1⟩ ∨ ((∃ k, z ∈ f k) ∨ z ∈ L) := by
      intro z hz; simp only [List.mem_cons] at hz; tauto
    rcases s3 x hx' with rfl | hx2 <;> rcases s3 y hy' with rfl | hy2
    · exact absurd rfl hxy
    · exact key y hy2
    · exact (key x hx2).symm
    · exact h.dj x y (hx2.imp id (by simp +contextual)) (hy2.imp id (by simp +contextual)) hxy
  · intro x hx'
    obtain ⟨d, hd, h1, h2⟩ := h.cov x hx'
    by_cases hdb' : d = b ∨ d = c
    · refine ⟨⟨u, 2 ^ (b.order + 1), b.order + 1⟩, by simp, ?_, ?_⟩
      · simp only; rcases hdb' with rfl | rfl <;> omega
      · simp only; rcases hdb' with rfl | rfl <;> omega
    · refine ⟨d, ?_, h1, h2⟩
      simp only [List.mem_cons] at hd ⊢
      tauto

end Verif.Buddy
