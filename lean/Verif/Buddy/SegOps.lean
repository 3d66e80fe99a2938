import Verif.Buddy.Seg
/-
Allocation and release inside one segment preserve the invariant.
-/
namespace Verif.Buddy

/-- complete invariant of a segment of capacity `2^maxO` whose busy blocks are `L` -/
structure SegInv (s : Seg) (L : List Block) : Prop where
  cap : s.cap = 2 ^ s.maxO
  ord : s.minO ≤ s.maxO
  tile : Tile s.minO s.maxO s.free L
  nb : NB s.maxO s.free
  used : s.used = (L.map Block.size).sum

theorem NB.sub {M : Nat} {f g : Nat → List Block} (h : NB M f) (hs : ∀ k x, x ∈ g k → x ∈ f k) : NB M g :=
  fun k hk b hb c hc => h k hk b (hs k b hb) c (hs k c hc)

theorem NB.push {M : Nat} {f : Nat → List Block} (h : NB M f) (b : Block)
    (hb : b.order < M → ∀ c ∈ f b.order, c.off ≠ b.off ^^^ 2 ^ b.order) :
    NB M (setF f b.order (f b.order ++ [b])) := by
  intro k hk x hx y hy
  rw [mem_setF] at hx hy
  by_cases hkb : k = b.order
  · subst hkb
    simp only [true_and, List.mem_append, List.mem_singleton, ne_eq, not_true_eq_false, false_and,
      or_false] at hx hy
    rcases hx with hx | rfl <;> rcases hy with hy | rfl
    · exact h _ hk x hx y hy
    · intro he; exact hb hk x hx ((xor_inv _ _ _).mp he)
    · exact hb hk y hy
    · intro he
      have h1 : y.off ^^^ y.off = y.off ^^^ (y.off ^^^ 2 ^ y.order) := by rw [← he]
      rw [← Nat.xor_assoc, Nat.xor_self, Nat.zero_xor] at h1
      have := Nat.two_pow_pos y.order
      omega
  · simp only [hkb, false_and, ne_eq, not_false_eq_true, true_and, false_or] at hx hy
    exact h k hk x hx y hy

theorem split_spec {m M : Nat} (n : Nat) (f : Nat → List Block) (b : Block) (L : List Block)
    (h : Tile m M f (b :: L)) (hnb : NB M f) (hn : m + n ≤ b.order) :
    Tile m M (split n f b).1 ((split n f b).2 :: L) ∧ NB M (split n f b).1 ∧
    (split n f b).2.order = b.order - n ∧ (split n f b).2.off = b.off ∧
    (∀ k, k < b.order - n ∨ b.order ≤ k → (split n f b).1 k = f k) := by
  induction n generalizing f b with
  | zero => exact ⟨h, hnb, rfl, rfl, fun _ _ => rfl⟩
  | succ n ih =>
    simp only [split]
    have h1 := h.halve (by omega)
    have h2 := h1.push
    simp only at h2
    have hnb' : NB M (setF f (b.order - 1) (f (b.order - 1) ++
        [⟨b.off + b.size / 2, b.size / 2, b.order - 1⟩])) := by
      refine hnb.push ⟨b.off + b.size / 2, b.size / 2, b.order - 1⟩ ?_
      simp only
      intro _ c hc he
      have hin := h.lv b (by simp)
      obtain ⟨o, ho⟩ : ∃ o, b.order = o + 1 := ⟨b.order - 1, by omega⟩
      have hs : b.size / 2 = 2 ^ o := by rw [hin.size, ho, pow_succ]; omega
      have hb0 : c.off = b.off := by
        rw [he, hs, ho, Nat.add_sub_cancel]
        have hd := hin.dvd
        rw [ho] at hd
        have hd' : 2 ^ o ∣ b.off := dvd_trans (pow_dvd_pow 2 (by omega)) hd
        rcases buddy_cases o b.off hd' with ⟨q1, q2⟩ | ⟨q1, q2, q3⟩
        · rw [← q2, Nat.xor_assoc, Nat.xor_self, Nat.xor_zero]
        · exfalso
          have : 2 ^ (o + 1) ∣ 2 ^ o := by
            have := Nat.dvd_sub hd q2
            rwa [Nat.sub_sub_self q1] at this
          have := Nat.le_of_dvd (Nat.two_pow_pos o) this
          rw [pow_succ] at this
          have := Nat.two_pow_pos o
          omega
      have hcb : c ≠ b := by
        rintro rfl
        exact h.ex _ _ hc (by simp)
      have hd := h.dj c b (Or.inl ⟨_, hc⟩) (Or.inr (by simp)) hcb
      have p1 := (h.fr _ c hc).2.pos
      have p2 := hin.pos
      unfold Disj at hd
      omega
    have := ih _ ⟨b.off, b.size / 2, b.order - 1⟩ h2 hnb' (by simp only; omega)
    obtain ⟨r1, r2, r3, r4, r5⟩ := this
    refine ⟨r1, r2, by rw [r3]; simp only; omega, r4, ?_⟩
    intro k hk
    rw [r5 k (by simp only; omega)]
    unfold setF
    rw [if_neg (by omega)]

theorem findOrder_some {f : Nat → List Block} {n k j : Nat} (h : findOrder f n k = some j) :
    k ≤ j ∧ j < k + n ∧ f j ≠ [] ∧ ∀ i, k ≤ i → i < j → f i = [] := by
  induction n generalizing k with
  | zero => simp [findOrder] at h
  | succ n ih =>
    simp only [findOrder] at h
    split at h
    · next he =>
      obtain ⟨h1, h2, h3, h4⟩ := ih h
      refine ⟨by omega, by omega, h3, ?_⟩
      intro i hi hij
      by_cases hik : i = k
      · subst hik; exact he
      · exact h4 i (by omega) hij
    · next he =>
      simp at h
      subst h
      exact ⟨by omega, by omega, he, by omega⟩

theorem findOrder_none {f : Nat → List Block} {n k : Nat} (h : findOrder f n k = none) :
    ∀ i, k ≤ i → i < k + n → f i = [] := by
  induction n generalizing k with
  | zero => omega
  | succ n ih =>
    simp only [findOrder] at h
    split at h
    · next he =>
      intro i h1 h2
      by_cases hik : i = k
      · subst hik; exact he
      · exact ih h i (by omega) (by omega)
    · simp at h

theorem allocSeg_spec {s s' : Seg} {L : List Block} {req : Nat} {b : Block} (h : SegInv s L)
    (ha : allocSeg s req = some (s', b)) :
    SegInv s' (b :: L) ∧ req ≤ b.size ∧ b.size < 2 * max req (2 ^ s.minO) ∧
    s'.minO = s.minO ∧ s'.maxO = s.maxO ∧ s'.cap = s.cap := by
  unfold allocSeg at ha
  simp only at ha
  split at ha
  · simp at ha
  · split at ha
    · simp at ha
    · next k hk =>
      obtain ⟨k1, k2, k3, k4⟩ := findOrder_some hk
      split at ha
      · simp at ha
      · next b0 tl hb =>
        simp only [Option.some.injEq, Prod.mk.injEq] at ha
        obtain ⟨rfl, rfl⟩ := ha
        have hb0 : b0 ∈ s.free k := by rw [hb]; simp
        have hord := (h.tile.fr k b0 hb0).1
        have htile := h.tile.pop hb
        have hnb : NB s.maxO (setF s.free k tl) := h.nb.sub (by
          intro j x hx
          rw [mem_setF] at hx
          rcases hx with ⟨rfl, hx⟩ | ⟨_, hx⟩
          · rw [hb]; simp [hx]
          · exact hx)
        set order := max (Nat.clog 2 (max req (2 ^ s.minO))) s.minO with horder
        obtain ⟨r1, r2, r3, r4, r5⟩ := split_spec (b0.order - order) _ b0 L htile hnb (by omega)
        have hsz : (split (b0.order - order) (setF s.free k tl) b0).2.size = 2 ^ order := by
          rw [(r1.lv _ (by simp)).size, r3]
          congr 1; omega
        have hclog : Nat.clog 2 (max req (2 ^ s.minO)) = order := by
          have h1 : s.minO ≤ Nat.clog 2 (max req (2 ^ s.minO)) := by
            have := Nat.clog_mono_right 2 (le_max_right req (2 ^ s.minO))
            rwa [Nat.clog_pow 2 _ (by omega)] at this
          omega
        refine ⟨⟨h.cap, h.ord, r1, r2, ?_⟩, ?_, ?_, rfl, rfl, rfl⟩
        · simp [h.used]; omega
        · rw [hsz, ← hclog]
          exact le_trans (le_max_left _ _) (Nat.le_pow_clog (by omega) _)
        · rw [hsz]
          by_cases h0 : order = 0
          · rw [h0]
            have : 0 < 2 ^ s.minO := Nat.two_pow_pos _
            have := le_max_right req (2 ^ s.minO)
            omega
          · have := Nat.pow_pred_clog_lt_self (b := 2) (by omega) (x := max req (2 ^ s.minO)) (by
              by_contra hc
              have : Nat.clog 2 (max req (2 ^ s.minO)) = 0 := Nat.clog_of_right_le_one (by omega) 2
              omega)
            rw [hclog] at this
            have e : 2 ^ order = 2 * 2 ^ (order - 1) := by
              obtain ⟨q, hq⟩ : ∃ q, order = q + 1 := ⟨order - 1, by omega⟩
              rw [hq, pow_succ]; simp; omega
            rw [e]
            simp only [Nat.pred_eq_sub_one] at this
            omega

theorem sizes_le (cap : Nat) (L : List Block) (hnd : L.Nodup)
    (hd : ∀ b ∈ L, ∀ c ∈ L, b ≠ c → Disj b c) (hf : ∀ b ∈ L, b.off + b.size ≤ cap) :
    (L.map Block.size).sum ≤ cap := by
  have h1 : (L.map Block.size).sum = ∑ b ∈ L.toFinset, b.size := by
    rw [List.sum_toFinset _ hnd]
  have h2 : ∑ b ∈ L.toFinset, b.size
      = (L.toFinset.biUnion (fun b => Finset.Ico b.off (b.off + b.size))).card := by
    rw [Finset.card_biUnion]
    · apply Finset.sum_congr rfl; intro b _; simp
    · intro b hb c hc hbc
      show Disjoint _ _
      rw [Finset.disjoint_left]
      intro x hx hx'
      simp only [Finset.mem_Ico] at hx hx'
      have := hd b (by simpa using hb) c (by simpa using hc) hbc
      unfold Disj at this
      omega
  rw [h1, h2]
  calc _ ≤ (Finset.range cap).card := by
        apply Finset.card_le_card
        intro x hx
        simp only [Finset.mem_biUnion, List.mem_toFinset, Finset.mem_Ico, Finset.mem_range] at hx ⊢
        obtain ⟨b, hb, h3, h4⟩ := hx
        have := hf b hb
        omega
    _ = cap := by simp

/-- free block sizes never exceed `cap - used` -/
theorem free_le {s : Seg} {L : List Block} (h : SegInv s L) {k : Nat} {b : Block} (hb : b ∈ s.free k) :
    b.size + s.used ≤ s.cap := by
  have := sizes_le s.cap (b :: L) (by
      rw [List.nodup_cons]; exact ⟨h.tile.ex k b hb, h.tile.ndl⟩)
    (by
      intro x hx y hy
      apply h.tile.dj
      · rcases List.mem_cons.mp hx with rfl | hx
        · exact Or.inl ⟨k, hb⟩
        · exact Or.inr hx
      · rcases List.mem_cons.mp hy with rfl | hy
        · exact Or.inl ⟨k, hb⟩
        · exact Or.inr hy)
    (by
      intro x hx
      rw [h.cap]
      rcases List.mem_cons.mp hx with rfl | hx
      · exact (h.tile.fr k x hb).2.fits
      · exact (h.tile.lv x hx).fits)
  rw [h.used]
  simpa using this

/-- an allocation fails in a segment iff no free block is large enough -/
theorem allocSeg_none_iff {s : Seg} {L : List Block} (h : SegInv s L) (req : Nat) :
    allocSeg s req = none ↔ ∀ k, ∀ b ∈ s.free k, b.size < max req (2 ^ s.minO) := by
  have hp2 : ∀ k b, b ∈ s.free k → Nat.clog 2 (max req (2 ^ s.minO)) ≤ k →
      max req (2 ^ s.minO) ≤ b.size := by
    intro k b hb hk
    obtain ⟨h1, h2⟩ := h.tile.fr k b hb
    rw [h2.size, h1]
    exact le_trans (Nat.le_pow_clog (by omega) _) (Nat.pow_le_pow_right (by omega) hk)
  constructor
  · intro hn k b hb
    by_contra hlt
    have hle : max req (2 ^ s.minO) ≤ b.size := by omega
    obtain ⟨h1, h2⟩ := h.tile.fr k b hb
    have hu := free_le h hb
    unfold allocSeg at hn
    simp only at hn
    rw [if_neg (by omega)] at hn
    have hclog : Nat.clog 2 (max req (2 ^ s.minO)) ≤ k := by
      rw [h2.size, h1] at hle
      have := Nat.clog_mono_right 2 hle
      rwa [Nat.clog_pow 2 _ (by omega)] at this
    have hlo := h2.lo
    have hhi := h2.hi
    split at hn
    · next hf =>
      have := findOrder_none hf k (by omega) (by omega)
      rw [this] at hb; simp at hb
    · next j hf =>
      obtain ⟨_, _, h3, _⟩ := findOrder_some hf
      split at hn
      · next he => exact h3 he
      · simp at hn
  · intro hall
    unfold allocSeg
    simp only
    split
    · rfl
    · split
      · rfl
      · next k hf =>
        obtain ⟨k1, k2, h3, _⟩ := findOrder_some hf
        split
        · rfl
        · next b tl hb =>
          exfalso
          have hbm : b ∈ s.free k := by rw [hb]; simp
          have := hall k b hbm
          have := hp2 k b hbm (by omega)
          omega

theorem coalesce_spec {m M : Nat} (n : Nat) (f : Nat → List Block) (b : Block) (L : List Block)
    (h : Tile m M f (b :: L)) (hnb : NB M f) (hn : M + 1 ≤ b.order + n) :
    Tile m M (coalesce n f b) L ∧ NB M (coalesce n f b) := by
  induction n generalizing f b with
  | zero =>
    have := (h.lv b (by simp)).hi
    omega
  | succ n ih =>
    simp only [coalesce]
    split
    · next hf =>
      refine ⟨h.push, hnb.push b ?_⟩
      intro _ c hc he
      rw [List.find?_eq_none] at hf
      have := hf c hc
      simp [he, (h.fr _ c hc).1] at this
    · next c hf =>
      have hc := List.mem_of_find?_eq_some hf
      have hp := List.find?_some hf
      simp only [Bool.and_eq_true, beq_iff_eq] at hp
      -- move c from the free list to the busy blocks
      have hnd := h.ndf b.order
      have hperm : (f b.order).Perm (c :: (f b.order).erase c) := List.perm_cons_erase hc
      have hg : Tile m M (setF f b.order (c :: (f b.order).erase c)) (b :: L) := by
        have hm : ∀ j x, x ∈ setF f b.order (c :: (f b.order).erase c) j ↔ x ∈ f j := by
          intro j x
          rw [mem_setF]
          by_cases hj : j = b.order
          · subst hj; simp [← hperm.mem_iff]
          · simp [hj]
        refine ⟨fun k x hx => h.fr k x ((hm k x).mp hx), h.lv, ?_, h.ndl,
          fun k x hx => h.ex k x ((hm k x).mp hx), ?_, ?_⟩
        · intro k
          unfold setF
          split
          · exact hperm.nodup_iff.mp (h.ndf _)
          · exact h.ndf k
        · intro x y hx hy
          simp only [hm] at hx hy
          exact h.dj x y hx hy
        · simpa only [hm] using h.cov
      have hpop := hg.pop (k := b.order) (b := c) (tl := (f b.order).erase c) (by simp [setF])
      have hsf : setF (setF f b.order (c :: (f b.order).erase c)) b.order ((f b.order).erase c)
          = setF f b.order ((f b.order).erase c) := by
        funext j; unfold setF; split <;> rfl
      rw [hsf] at hpop
      have hj := hpop.join hp.2 hp.1
      refine ih _ _ hj (hnb.sub ?_) ?_
      · intro k x hx
        rw [mem_setF] at hx
        rcases hx with ⟨rfl, hx⟩ | ⟨_, hx⟩
        · exact List.mem_of_mem_erase hx
        · exact hx
      · split <;> simp only <;> omega

theorem freeSeg_spec {s : Seg} {L : List Block} {b : Block} (h : SegInv s L) (hb : b ∈ L) :
    SegInv (freeSeg s b) (L.erase b) := by
  have hp := List.perm_cons_erase hb
  have ht := h.tile.perm hp
  obtain ⟨c1, c2⟩ := coalesce_spec (s.maxO + 1 - b.order) s.free b (L.erase b) ht h.nb (by
    have := (h.tile.lv b hb).hi; omega)
  refine ⟨h.cap, h.ord, c1, c2, ?_⟩
  have := (hp.map Block.size).sum_eq
  simp only [List.map_cons, List.sum_cons] at this
  simp only [freeSeg, h.used, this]
  omega

/-- all blocks free: a single free block -/
theorem empty_single {s : Seg} (h : SegInv s []) :
    s.free s.maxO = [⟨0, s.cap, s.maxO⟩] ∧ (∀ k, k ≠ s.maxO → s.free k = []) ∧ s.used = 0 := by
  have ht := h.tile
  -- no free block of smaller order
  have hnone : ∀ k, k < s.maxO → s.free k = [] := by
    intro k
    induction k using Nat.strong_induction_on with
    | _ k ih =>
      intro hk
      by_contra hne
      obtain ⟨b, hb⟩ := List.exists_mem_of_ne_nil _ hne
      obtain ⟨ho, hin⟩ := ht.fr k b hb
      have hsz := hin.size
      rw [ho] at hsz
      have hd := hin.dvd
      rw [ho] at hd
      have hpos := Nat.two_pow_pos k
      -- buddy offset lies in the segment
      have hbud : (b.off ^^^ 2 ^ k) + 2 ^ k ≤ 2 ^ s.maxO ∧ 2 ^ k ∣ (b.off ^^^ 2 ^ k) ∧
          (b.off ^^^ 2 ^ k = b.off + 2 ^ k ∨ (b.off ^^^ 2 ^ k) + 2 ^ k = b.off) := by
        rcases buddy_cases k b.off hd with ⟨q1, q2⟩ | ⟨q1, q2, q3⟩
        · refine ⟨?_, ?_, Or.inl q2⟩
          · rw [q2]
            have h1 : b.off < 2 ^ s.maxO := by have := hin.fits; omega
            have h2 : 2 ^ (k + 1) ∣ 2 ^ s.maxO := pow_dvd_pow 2 (by omega)
            obtain ⟨a, ha⟩ := q1
            obtain ⟨c, hc⟩ := h2
            rw [ha, hc] at h1 ⊢
            have : a < c := Nat.lt_of_mul_lt_mul_left h1
            have : 2 ^ (k + 1) * (a + 1) ≤ 2 ^ (k + 1) * c := Nat.mul_le_mul_left _ this
            rw [pow_succ] at this ⊢
            nlinarith
          · rw [q2]; exact (Nat.dvd_add_right hd).mpr dvd_rfl
        · have := hin.fits
          refine ⟨by omega, ?_, Or.inr (by omega)⟩
          rw [q3]; exact Nat.dvd_sub hd dvd_rfl
      obtain ⟨w1, w2, w3⟩ := hbud
      obtain ⟨c, hc, c1, c2⟩ := ht.cov (b.off ^^^ 2 ^ k) (by omega)
      simp only [List.not_mem_nil, or_false] at hc
      obtain ⟨j, hj⟩ := hc
      obtain ⟨hjo, hjin⟩ := ht.fr j c hj
      have hjsz := hjin.size
      rw [hjo] at hjsz
      have hjd := hjin.dvd
      rw [hjo] at hjd
      by_cases hjk : j < k
      · rw [ih j hjk (by omega)] at hj; simp at hj
      · have hcb : c ≠ b := by
          rintro rfl
          have : j = k := by omega
          subst this
          omega
        have hdis := ht.dj c b (Or.inl ⟨j, hj⟩) (Or.inl ⟨k, hb⟩) hcb
        by_cases hjk' : j = k
        · subst hjk'
          -- c is the buddy itself
          have : c.off = b.off ^^^ 2 ^ j := by
            obtain ⟨x, hx⟩ := hjd
            obtain ⟨y, hy⟩ := w2
            rw [hx, hy, hjsz] at c2
            rw [hx, hy] at c1
            have e1 : x ≤ y := Nat.le_of_mul_le_mul_left c1 hpos
            have e2 : y < x + 1 := by
              have : 2 ^ j * y < 2 ^ j * (x + 1) := by nlinarith
              exact Nat.lt_of_mul_lt_mul_left this
            rw [hx, hy]; congr 1; omega
          exact h.nb j hk b hb c hj this
        · -- c is larger, so it contains b
          have hkj : k + 1 ≤ j := by omega
          have hdk : 2 ^ (k + 1) ∣ c.off := dvd_trans (pow_dvd_pow 2 hkj) hjd
          have hle : 2 ^ (k + 1) ≤ c.size := by rw [hjsz]; exact Nat.pow_le_pow_right (by omega) hkj
          have hdsz : 2 ^ (k + 1) ∣ c.off + c.size :=
            (Nat.dvd_add_right hdk).mpr (by rw [hjsz]; exact pow_dvd_pow 2 hkj)
          have hpw : 2 ^ (k + 1) = 2 ^ k + 2 ^ k := by rw [pow_succ]; omega
          unfold Disj at hdis
          rcases buddy_cases k b.off hd with ⟨q1, q2⟩ | ⟨q1, q2, q3⟩
          · -- buddy right of b; c starts at or before buddy, ends after; b's start is aligned
            obtain ⟨x, hx⟩ := hdk
            obtain ⟨y, hy⟩ := q1
            obtain ⟨z, hz⟩ := hdsz
            rw [q2] at c1 c2
            rcases hdis with hdis | hdis
            · omega
            · rw [hx, hy] at c1
              rw [hx, hy] at hdis
              have e1 : x < y + 1 := by
                have : 2 ^ (k + 1) * x < 2 ^ (k + 1) * (y + 1) := by nlinarith
                exact Nat.lt_of_mul_lt_mul_left this
              have e2 : 2 ^ (k + 1) * x ≤ 2 ^ (k + 1) * y := Nat.mul_le_mul_left _ (by omega)
              omega
          · obtain ⟨x, hx⟩ := hdk
            obtain ⟨y, hy⟩ := q2
            obtain ⟨z, hz⟩ := hdsz
            rw [q3] at c1 c2
            rw [hy] at c1 c2
            have hbo : b.off = 2 ^ (k + 1) * y + 2 ^ k := by omega
            rcases hdis with hdis | hdis
            · rw [hz] at c2 hdis
              have e1 : y < z := Nat.lt_of_mul_lt_mul_left c2
              have e2 : 2 ^ (k + 1) * (y + 1) ≤ 2 ^ (k + 1) * z := Nat.mul_le_mul_left _ e1
              rw [hbo] at hdis
              nlinarith
            · omega
  have hall : ∀ k, k ≠ s.maxO → s.free k = [] := by
    intro k hk
    by_cases hlt : k < s.maxO
    · exact hnone k hlt
    · by_contra hne
      obtain ⟨b, hb⟩ := List.exists_mem_of_ne_nil _ hne
      obtain ⟨ho, hin⟩ := ht.fr k b hb
      have := hin.hi
      omega
  refine ⟨?_, hall, by rw [h.used]; rfl⟩
  have hshape : ∀ b ∈ s.free s.maxO, b = ⟨0, s.cap, s.maxO⟩ := by
    intro b hb
    obtain ⟨ho, hin⟩ := ht.fr _ b hb
    have h1 := hin.size
    have h2 := hin.fits
    rw [ho] at h1
    obtain ⟨o, sz, od⟩ := b
    simp only at *
    rw [h.cap]
    have : o = 0 := by omega
    rw [this, h1, ho]
  obtain ⟨b, hb, _⟩ := ht.cov 0 (Nat.two_pow_pos _)
  simp only [List.not_mem_nil, or_false] at hb
  obtain ⟨k, hk⟩ := hb
  have hkM : k = s.maxO := by
    by_contra hne
    rw [hall k hne] at hk; simp at hk
  subst hkM
  have hnd := ht.ndf s.maxO
  match hl : s.free s.maxO with
  | [] => rw [hl] at hk; simp at hk
  | [x] => rw [hshape x (by rw [hl]; simp)]
  | x :: y :: t =>
    exfalso
    rw [hl] at hnd
    have h1 := hshape x (by rw [hl]; simp)
    have h2 := hshape y (by rw [hl]; simp)
    rw [h1, h2] at hnd
    simp at hnd

theorem newSeg_inv (m M : Nat) (h : m ≤ M) : SegInv (newSeg (2 ^ M) m M) [] := by
  have hm : ∀ k b, b ∈ (newSeg (2 ^ M) m M).free k ↔ k = M ∧ b = ⟨0, 2 ^ M, M⟩ := by
    intro k b
    simp only [newSeg]
    split <;> simp_all
  refine ⟨rfl, h, ⟨?_, by simp, ?_, by simp, by simp, ?_, ?_⟩, ?_, rfl⟩
  · intro k b hb
    obtain ⟨rfl, rfl⟩ := (hm k b).mp hb
    exact ⟨rfl, rfl, by simp, by simp [newSeg], h, le_refl _⟩
  · intro k
    simp only [newSeg]
    split <;> simp
  · intro b c hb hc hbc
    simp only [hm, List.not_mem_nil, or_false] at hb hc
    obtain ⟨_, _, rfl⟩ := hb
    obtain ⟨_, _, rfl⟩ := hc
    exact absurd rfl hbc
  · intro x hx
    refine ⟨⟨0, 2 ^ M, M⟩, Or.inl ⟨M, (hm _ _).mpr ⟨rfl, rfl⟩⟩, by simp, ?_⟩
    simpa [newSeg] using hx
  · intro k hk b hb
    have := ((hm k b).mp hb).1
    simp only [newSeg] at hk
    omega

end Verif.Buddy
