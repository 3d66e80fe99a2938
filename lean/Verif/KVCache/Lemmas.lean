import Verif.KVCache.Model
/-
Lemmas for the KV caches: what the head-copy loop does to a buffer.
-/
namespace Verif.KVCache
open Verif.Tensor
variable {α : Type}

theorem bind_ok {α β : Type} (a : α) (g : α → Except Fail β) : (Except.ok a >>= g) = g a := rfl

/-- Buffer position of head `q`, token `s`, component `d`. -/
def pos (c : Cfg) (q s d : Nat) : Nat := (q * c.maxLen + s) * c.dim + d

theorem pos_inj {c : Cfg} {q s d q' s' d' : Nat} (hs : s < c.maxLen) (hd : d < c.dim)
    (hs' : s' < c.maxLen) (hd' : d' < c.dim) (h : pos c q s d = pos c q' s' d') :
    q = q' ∧ s = s' ∧ d = d' := by
  unfold pos at h
  have h1 : (q * c.maxLen + s) = (q' * c.maxLen + s') := by
    have := congrArg (· / c.dim) h
    simpa [Nat.add_comm, Nat.add_mul_div_right, Nat.div_eq_of_lt, hd, hd', (by omega : 0 < c.dim)] using this
  have h2 : q = q' := by
    have := congrArg (· / c.maxLen) h1
    simpa [Nat.add_comm, Nat.add_mul_div_right, Nat.div_eq_of_lt, hs, hs', (by omega : 0 < c.maxLen)] using this
  subst h2
  have h3 : s = s' := by omega
  subst h3
  exact ⟨rfl, rfl, by omega⟩

theorem pos_lt {c : Cfg} {q s d : Nat} (hq : q < c.qHeads) (hs : s < c.maxLen) (hd : d < c.dim) :
    pos c q s d < c.qHeads * c.maxLen * c.dim := by
  unfold pos
  have h1 : (q + 1) * c.maxLen ≤ c.qHeads * c.maxLen := Nat.mul_le_mul_right _ hq
  have h2 : (q * c.maxLen + s + 1) * c.dim ≤ c.qHeads * c.maxLen * c.dim :=
    Nat.mul_le_mul_right _ (by rw [Nat.add_mul] at h1; omega)
  rw [Nat.add_mul] at h2
  omega

/-- One copy, seen at a buffer position. -/
theorem copyTo_ok (c : Cfg) (m : Mem α) (q p len : Nat) (src : Nat → Option α) (hq : q < c.qHeads)
    (hp : p + len ≤ c.maxLen) :
    ∃ m', copyTo (c.qHeads * c.maxLen * c.dim) m ((q * c.maxLen + p) * c.dim) (len * c.dim) src = .ok m' ∧
      ∀ q' s d, s < c.maxLen → d < c.dim → m' (pos c q' s d) =
        if q' = q ∧ p ≤ s ∧ s < p + len then src ((s - p) * c.dim + d) else m (pos c q' s d) := by
  unfold copyTo
  by_cases h0 : len * c.dim = 0
  · refine ⟨m, by rw [if_pos h0], ?_⟩
    intro q' s d hs hd
    rw [if_neg]
    rcases Nat.mul_eq_zero.mp h0 with h | h <;> omega
  · have hcap : ¬ c.qHeads * c.maxLen * c.dim < (q * c.maxLen + p) * c.dim + len * c.dim := by
      rw [← Nat.add_mul]
      have h1 : (q + 1) * c.maxLen ≤ c.qHeads * c.maxLen := Nat.mul_le_mul_right _ hq
      rw [Nat.add_mul] at h1
      exact Nat.not_lt.mpr (Nat.mul_le_mul_right _ (by omega))
    refine ⟨_, by rw [if_neg h0, if_neg hcap], ?_⟩
    intro q' s d hs hd
    have key : (((q * c.maxLen + p) * c.dim : Nat) ≤ pos c q' s d ∧
        pos c q' s d < (q * c.maxLen + p) * c.dim + len * c.dim) ↔ (q' = q ∧ p ≤ s ∧ s < p + len) := by
      unfold pos
      constructor
      · rintro ⟨h1, h2⟩
        rw [← Nat.add_mul] at h2
        have a1 : q * c.maxLen + p ≤ q' * c.maxLen + s := by
          by_contra hc
          have := Nat.mul_le_mul_right c.dim (show q' * c.maxLen + s + 1 ≤ q * c.maxLen + p by omega)
          rw [Nat.add_mul (q' * c.maxLen + s) 1] at this
          omega
        have a2 : q' * c.maxLen + s < q * c.maxLen + p + len := by
          by_contra hc
          have := Nat.mul_le_mul_right c.dim (show q * c.maxLen + p + len ≤ q' * c.maxLen + s by omega)
          omega
        have a3 : q' = q := by
          rcases Nat.lt_trichotomy q' q with h | h | h
          · have := Nat.mul_le_mul_right c.maxLen (show q' + 1 ≤ q by omega)
            rw [Nat.add_mul] at this; omega
          · exact h
          · have := Nat.mul_le_mul_right c.maxLen (show q + 1 ≤ q' by omega)
            rw [Nat.add_mul] at this; omega
        subst a3
        omega
      · rintro ⟨rfl, h1, h2⟩
        constructor
        · have := Nat.mul_le_mul_right c.dim (show q' * c.maxLen + p ≤ q' * c.maxLen + s by omega)
          omega
        · rw [← Nat.add_mul]
          have := Nat.mul_le_mul_right c.dim (show q' * c.maxLen + s + 1 ≤ q' * c.maxLen + p + len by omega)
          rw [Nat.add_mul (q' * c.maxLen + s) 1] at this
          omega
    by_cases hc : q' = q ∧ p ≤ s ∧ s < p + len
    · have hk := key.mpr hc
      rw [if_pos hc]
      rw [if_pos (by constructor <;> [exact_mod_cast hk.1; exact_mod_cast hk.2])]
      congr 1
      obtain ⟨rfl, h1, h2⟩ := hc
      have : (pos c q' s d : Int) - ((q' * c.maxLen + p) * c.dim : Nat) = ((s - p) * c.dim + d : Nat) := by
        unfold pos
        obtain ⟨e, rfl⟩ := Nat.exists_eq_add_of_le h1
        rw [Nat.add_sub_cancel_left]
        push_cast
        ring
      rw [this]; rfl
    · rw [if_neg hc]
      rw [if_neg]
      intro hh
      exact hc (key.mp ⟨by exact_mod_cast hh.1, by exact_mod_cast hh.2⟩)

/-- The list of `(h, r)` pairs of the double loop. -/
def pairs (c : Cfg) : List (Nat × Nat) :=
  (List.range c.kvHeads).flatMap fun h => (List.range c.rep).map fun r => (h, r)

theorem mem_pairs {c : Cfg} {h r : Nat} : (h, r) ∈ pairs c ↔ h < c.kvHeads ∧ r < c.rep := by
  simp [pairs, List.mem_flatMap]

def stepCopy (c : Cfg) (p len : Nat) (t : Tens α) (m : Mem α) (hr : Nat × Nat) : Except Fail (Mem α) :=
  copyTo (c.qHeads * c.maxLen * c.dim) m
    (((hr.1 * c.rep + hr.2) * c.maxLen + p) * c.dim) (len * c.dim) (headRaw t hr.1)

theorem copyHeads_eq (c : Cfg) (m : Mem α) (p len : Nat) (t : Tens α) :
    copyHeads c m p len t = (pairs c).foldlM (stepCopy c p len t) m := rfl

theorem foldl_ok (c : Cfg) (p len : Nat) (t : Tens α) (hp : p + len ≤ c.maxLen) :
    ∀ (ps : List (Nat × Nat)) (m : Mem α),
      (∀ x ∈ ps, x.2 < c.rep ∧ x.1 * c.rep + x.2 < c.qHeads) →
      ∃ m', ps.foldlM (stepCopy c p len t) m = .ok m' ∧
        ∀ q s d, s < c.maxLen → d < c.dim →
          m' (pos c q s d) = if (∃ x ∈ ps, x.1 * c.rep + x.2 = q) ∧ p ≤ s ∧ s < p + len
            then headRaw t (q / c.rep) ((s - p) * c.dim + d) else m (pos c q s d)
  | [], m, _ => ⟨m, rfl, fun q s d _ _ => by simp⟩
  | x :: ps, m, h => by
    have hx := h x (by simp)
    obtain ⟨m1, e1, f1⟩ := copyTo_ok c m (x.1 * c.rep + x.2) p len (headRaw t x.1) hx.2 hp
    obtain ⟨m2, e2, f2⟩ := foldl_ok c p len t hp ps m1 (fun y hy => h y (by simp [hy]))
    refine ⟨m2, ?_, ?_⟩
    · rw [List.foldlM_cons]
      have : stepCopy c p len t m x = .ok m1 := e1
      rw [this, bind_ok, e2]
    · intro q s d hs hd
      rw [f2 q s d hs hd, f1 q s d hs hd]
      by_cases hin : p ≤ s ∧ s < p + len
      · by_cases ht : ∃ y ∈ ps, y.1 * c.rep + y.2 = q
        · have ht' : ∃ y ∈ x :: ps, y.1 * c.rep + y.2 = q := by
            obtain ⟨y, hy, e⟩ := ht; exact ⟨y, by simp [hy], e⟩
          rw [if_pos ⟨ht, hin⟩, if_pos ⟨ht', hin⟩]
        · rw [if_neg (fun hh => ht hh.1)]
          by_cases hq : q = x.1 * c.rep + x.2
          · rw [if_pos ⟨hq, hin⟩, if_pos ⟨⟨x, by simp, hq.symm⟩, hin⟩]
            have : q / c.rep = x.1 := by
              rw [hq, Nat.add_comm, Nat.add_mul_div_right _ _ (by omega), Nat.div_eq_of_lt hx.1, Nat.zero_add]
            rw [this]
          · rw [if_neg (by tauto), if_neg]
            rintro ⟨⟨y, hy, e⟩, -⟩
            rcases List.mem_cons.mp hy with rfl | hy
            · exact hq e.symm
            · exact ht ⟨y, hy, e⟩
      · rw [if_neg (fun hh => hin hh.2), if_neg (fun hh => hin hh.2), if_neg (fun hh => hin hh.2)]

theorem pair_lt {c : Cfg} {h r : Nat} (hh : h < c.kvHeads) (hr : r < c.rep) :
    h * c.rep + r < c.qHeads := by
  have h1 : (h + 1) * c.rep ≤ c.kvHeads * c.rep := Nat.mul_le_mul_right _ hh
  have h2 : c.kvHeads * c.rep ≤ c.qHeads := Nat.mul_div_le _ _
  rw [Nat.add_mul] at h1
  omega

/-- The loop within capacity: exactly the positions `p ≤ s < p+len` of every query head are
overwritten, with the tokens of the matching key/value head. -/
theorem copyHeads_ok (c : Cfg) (hdiv : c.kvHeads * c.rep = c.qHeads) (m : Mem α) (p len : Nat)
    (t : Tens α) (hp : p + len ≤ c.maxLen) :
    ∃ m', copyHeads c m p len t = .ok m' ∧
      ∀ q s d, q < c.qHeads → s < c.maxLen → d < c.dim →
        m' (pos c q s d) = if p ≤ s ∧ s < p + len
          then headRaw t (q / c.rep) ((s - p) * c.dim + d) else m (pos c q s d) := by
  obtain ⟨m', e, f⟩ := foldl_ok c p len t hp (pairs c) m (by
    rintro ⟨h, r⟩ hx
    rw [mem_pairs] at hx
    exact ⟨hx.2, pair_lt hx.1 hx.2⟩)
  refine ⟨m', e, ?_⟩
  intro q s d hq hs hd
  rw [f q s d hs hd]
  have hex : ∃ x ∈ pairs c, x.1 * c.rep + x.2 = q := by
    have hrep : 0 < c.rep := by
      rcases Nat.eq_zero_or_pos c.rep with h | h
      · rw [h] at hdiv; omega
      · exact h
    refine ⟨(q / c.rep, q % c.rep), ?_, by simpa [Nat.mul_comm] using Nat.div_add_mod q c.rep⟩
    rw [mem_pairs]
    exact ⟨by rw [Nat.div_lt_iff_lt_mul hrep]; omega, Nat.mod_lt _ hrep⟩
  simp [hex]

/-- Past capacity the last head runs off the end of the buffer. -/
theorem copyHeads_ub (c : Cfg) (hdiv : c.kvHeads * c.rep = c.qHeads) (hq : 0 < c.qHeads)
    (hd : 0 < c.dim) (m : Mem α) (p len : Nat) (t : Tens α) (hl : 0 < len) (hp : c.maxLen < p + len) :
    copyHeads c m p len t = .error .ub := by
  rw [copyHeads_eq]
  have hk : 0 < c.kvHeads := by
    rcases Nat.eq_zero_or_pos c.kvHeads with h | h
    · rw [h] at hdiv; omega
    · exact h
  have hr : 0 < c.rep := by
    rcases Nat.eq_zero_or_pos c.rep with h | h
    · rw [h] at hdiv; omega
    · exact h
  have hbad : ∀ m : Mem α, stepCopy c p len t m (c.kvHeads - 1, c.rep - 1) = .error .ub := by
    intro m
    unfold stepCopy copyTo
    rw [if_neg (Nat.mul_ne_zero (by omega) (by omega)), if_pos]
    have e1 : (c.kvHeads - 1) * c.rep + (c.rep - 1) + 1 = c.qHeads := by
      rw [← hdiv]
      obtain ⟨k, hk'⟩ : ∃ k, c.kvHeads = k + 1 := ⟨c.kvHeads - 1, by omega⟩
      rw [hk', Nat.add_sub_cancel, Nat.add_mul]; omega
    have e2 : c.qHeads * c.maxLen = ((c.kvHeads - 1) * c.rep + (c.rep - 1)) * c.maxLen + c.maxLen := by
      rw [← e1]; ring
    rw [← Nat.add_mul]
    change c.qHeads * c.maxLen * c.dim <
      ((((c.kvHeads - 1) * c.rep + (c.rep - 1)) * c.maxLen + p) + len) * c.dim
    rw [e2]
    exact Nat.mul_lt_mul_of_pos_right (by omega) hd
  have hpre : ∀ (ps : List (Nat × Nat)) (m : Mem α) (x : Nat × Nat),
      (∀ m : Mem α, stepCopy c p len t m x = .error .ub) → x ∈ ps →
      ps.foldlM (stepCopy c p len t) m = .error .ub := by
    intro ps
    induction ps with
    | nil => intro m x _ h; simp at h
    | cons y ps ih =>
      intro m x hx h
      rw [List.foldlM_cons]
      rcases List.mem_cons.mp h with rfl | h
      · rw [hx]; rfl
      · cases hy : stepCopy c p len t m y with
        | error e =>
          have : e = .ub := by
            unfold stepCopy copyTo at hy
            split_ifs at hy
            exact (Except.error.inj hy).symm
          rw [this]; rfl
        | ok m1 => rw [bind_ok]; exact ih m1 x hx h
  exact hpre _ m _ hbad (mem_pairs.mpr ⟨by omega, by omega⟩)

end Verif.KVCache
