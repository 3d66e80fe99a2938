import Verif.Ops.Elewise

/-!
# C73: gather and embedding lookup

Sources: `mllm/core/aops/GatherOp.cpp` L25-L44 (shape), `mllm/backends/cpu/ops/GatherOp.cpp` L11-L66;
`mllm/core/aops/EmbeddingOp.cpp` L68-L79, `mllm/backends/cpu/ops/EmbeddingOp.cpp` L15-L60 (the fp32 and
fp16 cases; the GGUF cases, which call a dequantisation kernel, are not modelled).
Indices are integers (fp32 indices are truncated by the code first).  A `memcpy` of `n` elements is `n`
copies.
-/

namespace Verif.Ops

open Verif.Tensor

variable {α : Type}

/-! ### Model -/

/-- The row an index value selects (GatherOp.cpp L46-L56): negative values count from the end, anything
else outside the table is skipped. -/
def gatherRow (n : Nat) (v : Int) : Option Nat :=
  let idx := if v < 0 then v + n else v
  if idx < 0 ∨ (n : Int) ≤ idx then none else some idx.toNat

/-- `reshape` and `forward` of the gather operator.  The index tensor is read in memory order. -/
def gatherOp (t : Tens α) (idx : Tens Int) (d : Int) : Option (Tens α) :=
  let dd := normDim t.shape.length d
  if dd < 0 ∨ (t.shape.length : Int) ≤ dd then none
  else
    let dim := dd.toNat
    let outer := numel (t.shape.take dim)
    let inner := numel (t.shape.drop (dim + 1))
    let n := t.shape.getD dim 0
    let count := numel idx.shape
    some (fresh (t.shape.take dim ++ idx.shape ++ t.shape.drop (dim + 1)) (bufV
      ((List.range outer).flatMap fun o => (List.range count).flatMap fun i =>
        match (idx.raw i).bind (gatherRow n) with
        | none => []
        | some x => (List.range inner).map fun e =>
            ((o * count + i) * inner + e, t.raw ((o * n + x) * inner + e)))))

/-- `CPUEmbeddingOp::forward`, fp32/fp16: the row of the table is addressed without any check. -/
def embed (w : Tens α) (hidden : Nat) (ids : Tens Int) : Option (Tens α) :=
  match ids.shape with
  | [B, S] =>
    some (fresh [B, S, hidden] (bufV
      ((List.range B).flatMap fun b => (List.range S).flatMap fun s => (List.range hidden).map fun e =>
        ((b * S + s) * hidden + e,
          (ids.elem [b, s]).bind fun id => w.mem (w.off + hidden * id + e)))))
  | _ => none

/-! ### Proofs -/

theorem split3 {o i e I E : Nat} (hi : i < I) (he : e < E) :
    ((o * I + i) * E + e) / E / I = o ∧ ((o * I + i) * E + e) / E % I = i ∧
      ((o * I + i) * E + e) % E = e := by
  have h1 : ((o * I + i) * E + e) / E = o * I + i := by
    rw [Nat.add_comm, Nat.add_mul_div_right _ _ (by omega), Nat.div_eq_of_lt he]; omega
  refine ⟨?_, ?_, ?_⟩
  · rw [h1, Nat.add_comm, Nat.add_mul_div_right _ _ (by omega), Nat.div_eq_of_lt hi]; omega
  · rw [h1, Nat.add_comm, Nat.add_mul_mod_self_right, Nat.mod_eq_of_lt hi]
  · rw [Nat.add_comm, Nat.add_mul_mod_self_right, Nat.mod_eq_of_lt he]

/-- **C73, gather.** For every table, dimension and index tensor (both row-major): the result has the
dimension replaced by the index shape, and the entry at an index position holds the table entry the index
value names; non-negative values count from the front, negative ones from the end. -/
theorem gather_elements (t : Tens α) (idx : Tens Int) (pre post : List Nat) (n : Nat)
    (hs : t.shape = pre ++ n :: post) (hc : t.Contig) (hci : idx.Contig) :
    ∃ r, gatherOp t idx pre.length = some r ∧ r.shape = pre ++ idx.shape ++ post ∧
      ∀ p j q v, InB pre p → InB idx.shape j → InB post q → idx.elem j = some v →
        (∀ x : Nat, x < n → (v = x ∨ v = (x : Int) - n) → r.elem (p ++ j ++ q) = t.elem (p ++ x :: q)) ∧
        (v < -n ∨ (n : Int) ≤ v → r.elem (p ++ j ++ q) = none) := by
  have hget : t.shape.getD pre.length 0 = n := by
    rw [hs, List.getD_append_right _ _ _ _ (le_refl _)]; simp
  have htake : t.shape.take pre.length = pre := by rw [hs]; simp
  have hdrop : t.shape.drop (pre.length + 1) = post := by rw [hs]; simp [List.drop_append]
  let ws : List (Nat × Option α) := (List.range (numel pre)).flatMap fun o =>
    (List.range (numel idx.shape)).flatMap fun i =>
      match (idx.raw i).bind (gatherRow n) with
      | none => []
      | some x => (List.range (numel post)).map fun e =>
          ((o * numel idx.shape + i) * numel post + e, t.raw ((o * n + x) * numel post + e))
  have hmem : ∀ w, w ∈ ws ↔ ∃ o, o < numel pre ∧ ∃ i, i < numel idx.shape ∧ ∃ x,
      (idx.raw i).bind (gatherRow n) = some x ∧ ∃ e, e < numel post ∧
        w = ((o * numel idx.shape + i) * numel post + e, t.raw ((o * n + x) * numel post + e)) := by
    intro w
    simp only [ws, List.mem_flatMap, List.mem_range]
    constructor
    · rintro ⟨o, ho, i, hi, hw⟩
      cases hx : (idx.raw i).bind (gatherRow n) with
      | none => rw [hx] at hw; simp at hw
      | some x =>
        rw [hx] at hw
        simp only [List.mem_map, List.mem_range] at hw
        obtain ⟨e, he, rfl⟩ := hw
        exact ⟨o, ho, i, hi, x, hx, e, he, rfl⟩
    · rintro ⟨o, ho, i, hi, x, hx, e, he, rfl⟩
      refine ⟨o, ho, i, hi, ?_⟩
      rw [hx]
      simp only [List.mem_map, List.mem_range]
      exact ⟨e, he, rfl⟩
  refine ⟨fresh (pre ++ idx.shape ++ post) (bufV ws), ?_, rfl, ?_⟩
  · unfold gatherOp
    have hd : normDim t.shape.length (pre.length : Int) = pre.length := by
      unfold normDim; rw [if_neg (by omega)]
    simp only [hd]
    rw [if_neg (by rw [hs]; simp)]
    simp only [Int.toNat_natCast, hget, htake, hdrop]
    rfl
  · intro p j q v hp hj hq hv
    have hin : InB (pre ++ idx.shape ++ post) (p ++ j ++ q) := by
      rw [inB_append _ _ _ _ (by simp [hp.length, hj.length]), inB_append _ _ _ _ hp.length]
      exact ⟨⟨hp, hj⟩, hq⟩
    have hlin : lin (pre ++ idx.shape ++ post) (p ++ j ++ q) =
        (lin pre p * numel idx.shape + lin idx.shape j) * numel post + lin post q := by
      rw [lin_append _ _ _ _ (by simp [hp.length, hj.length]), lin_append _ _ _ _ hp.length]
    have hraw : idx.raw (lin idx.shape j) = some v := by rw [hci.raw hj, hv]
    have huniq : ∀ o i e, i < numel idx.shape → e < numel post →
        (o * numel idx.shape + i) * numel post + e =
          (lin pre p * numel idx.shape + lin idx.shape j) * numel post + lin post q →
        o = lin pre p ∧ i = lin idx.shape j ∧ e = lin post q := by
      intro o i e hi he heq
      have a := split3 (o := o) hi he
      have b := split3 (o := lin pre p) (lin_lt hj) (lin_lt hq)
      rw [heq] at a
      exact ⟨a.1.symm.trans b.1, a.2.1.symm.trans b.2.1, a.2.2.symm.trans b.2.2⟩
    constructor
    · intro x hx hvx
      have hrow : gatherRow n v = some x := by
        unfold gatherRow
        dsimp only
        rcases hvx with rfl | rfl
        · rw [if_neg (by omega : ¬ (x : Int) < 0), if_neg (by omega)]; simp
        · rw [if_pos (by omega : (x : Int) - n < 0), if_neg (by omega)]; simp
      rw [fresh_elem _ _ hin, hlin]
      have hin2 : InB t.shape (p ++ x :: q) := by
        rw [hs, inB_append _ _ _ _ hp.length]; exact ⟨hp, hx, hq⟩
      have hl2 : lin t.shape (p ++ x :: q) = (lin pre p * n + x) * numel post + lin post q := by
        rw [hs, lin_append _ _ _ _ hp.length]; simp only [lin, numel]; ring
      apply bufV_eq
      · intro w hw hk
        obtain ⟨o, ho, i, hi, x', hx', e, he, rfl⟩ := (hmem w).mp hw
        obtain ⟨rfl, rfl, rfl⟩ := huniq o i e hi he hk
        rw [hraw] at hx'
        simp only [Option.bind_some, hrow, Option.some.injEq] at hx'
        subst hx'
        dsimp only
        rw [← hc.raw hin2, hl2]
      · refine (hmem _).mpr ⟨_, lin_lt hp, _, lin_lt hj, x, ?_, _, lin_lt hq, ?_⟩
        · rw [hraw]; simpa using hrow
        · rw [← hc.raw hin2, hl2]
    · intro hout
      have hrow : gatherRow n v = none := by
        unfold gatherRow
        dsimp only
        rw [if_pos]
        split_ifs <;> omega
      rw [fresh_elem _ _ hin, hlin]
      apply bufV_none_or
      intro w hw hk
      exfalso
      obtain ⟨o, ho, i, hi, x', hx', e, he, rfl⟩ := (hmem w).mp hw
      obtain ⟨rfl, rfl, rfl⟩ := huniq o i e hi he hk
      rw [hraw] at hx'
      simp [hrow] at hx'

/-- **C73 is violated for indices outside the table:** no error is raised, and the entry of the result is
memory nobody wrote. -/
theorem gather_range_violated (t : Tens α) (idx : Tens Int) (pre post : List Nat) (n : Nat)
    (hs : t.shape = pre ++ n :: post) (hc : t.Contig) (hci : idx.Contig) (p j q : List Nat) (v : Int)
    (hp : InB pre p) (hj : InB idx.shape j) (hq : InB post q) (hv : idx.elem j = some v)
    (hout : v < -n ∨ (n : Int) ≤ v) :
    ∃ r, gatherOp t idx pre.length = some r ∧ InB r.shape (p ++ j ++ q) ∧ r.elem (p ++ j ++ q) = none := by
  obtain ⟨r, h1, h2, h3⟩ := gather_elements t idx pre post n hs hc hci
  refine ⟨r, h1, ?_, (h3 p j q v hp hj hq hv).2 hout⟩
  rw [h2, inB_append _ _ _ _ (by simp [hp.length, hj.length]), inB_append _ _ _ _ hp.length]
  exact ⟨⟨hp, hj⟩, hq⟩

/-- **C73, embedding.** For every table of `V` rows and every batch of ids below `V` the result at
`[b, s]` is the row of the id at `[b, s]` (ids may be any view). -/
theorem embed_elements (w : Tens α) (hidden V B S : Nat) (ids : Tens Int) (hw : w.shape = [V, hidden])
    (hc : w.Contig) (hs : ids.shape = [B, S]) :
    ∃ r, embed w hidden ids = some r ∧ r.shape = [B, S, hidden] ∧
      ∀ b s e (id : Nat), b < B → s < S → e < hidden → ids.elem [b, s] = some (id : Int) → id < V →
        r.elem [b, s, e] = w.elem [id, e] := by
  refine ⟨_, by unfold embed; rw [hs], rfl, ?_⟩
  intro b s e id hb hss he hid hV
  have hin : InB [B, S, hidden] [b, s, e] := by simp [InB, hb, hss, he]
  have hlin : lin [B, S, hidden] [b, s, e] = (b * S + s) * hidden + e := by
    simp only [lin, numel]; ring
  have hval : w.elem [id, e] = w.mem (w.off + hidden * (id : Int) + e) := by
    unfold Tens.elem
    rw [hc.addr (by rw [hw]; simp [InB, hV, he]), hw]
    congr 1
    simp only [lin, numel]; push_cast; ring
  rw [fresh_elem _ _ hin, hlin, hval]
  apply bufV_eq
  · intro w' hw' hk
    simp only [List.mem_flatMap, List.mem_map, List.mem_range] at hw'
    obtain ⟨b', hb', s', hs', e', he', rfl⟩ := hw'
    have a := split3 (o := b') hs' he'
    have c := split3 (o := b) hss he
    dsimp only at hk
    rw [hk] at a
    obtain ⟨rfl, rfl, rfl⟩ : b' = b ∧ s' = s ∧ e' = e :=
      ⟨a.1.symm.trans c.1, a.2.1.symm.trans c.2.1, a.2.2.symm.trans c.2.2⟩
    dsimp only
    rw [hid]; rfl
  · simp only [List.mem_flatMap, List.mem_map, List.mem_range]
    exact ⟨b, hb, s, hss, e, he, by rw [hid]; rfl⟩

/-- **C73 is violated for ids outside the vocabulary:** no error is raised, the row is read from memory
outside the table. -/
theorem embed_range_violated (w : Tens α) (hidden V B S : Nat) (ids : Tens Int) (hw : w.shape = [V, hidden])
    (hs : ids.shape = [B, S]) (hbuf : ∀ a : Int, a < w.off ∨ w.off + numel w.shape ≤ a → w.mem a = none)
    (b s e : Nat) (id : Int) (hb : b < B) (hss : s < S) (he : e < hidden) (hid : ids.elem [b, s] = some id)
    (hout : id < 0 ∨ (V : Int) ≤ id) :
    ∃ r, embed w hidden ids = some r ∧ InB r.shape [b, s, e] ∧ r.elem [b, s, e] = none := by
  have hin : InB [B, S, hidden] [b, s, e] := by simp [InB, hb, hss, he]
  have hlin : lin [B, S, hidden] [b, s, e] = (b * S + s) * hidden + e := by
    simp only [lin, numel]; ring
  refine ⟨_, by unfold embed; rw [hs], hin, ?_⟩
  rw [fresh_elem _ _ hin, hlin]
  apply bufV_none_or
  intro w' hw' hk
  simp only [List.mem_flatMap, List.mem_map, List.mem_range] at hw'
  obtain ⟨b', hb', s', hs', e', he', rfl⟩ := hw'
  have a := split3 (o := b') hs' he'
  have c := split3 (o := b) hss he
  dsimp only at hk
  rw [hk] at a
  obtain ⟨rfl, rfl, rfl⟩ : b' = b ∧ s' = s ∧ e' = e :=
    ⟨a.1.symm.trans c.1, a.2.1.symm.trans c.2.1, a.2.2.symm.trans c.2.2⟩
  dsimp only
  rw [hid]
  apply hbuf
  have hn : (numel w.shape : Int) = V * hidden := by rw [hw]; simp [numel]
  rw [hn]
  have hh : (0 : Int) < hidden := by omega
  rcases hout with h | h
  · left
    have : (hidden : Int) * id ≤ hidden * (-1) := Int.mul_le_mul_of_nonneg_left (by omega) (by omega)
    omega
  · right
    have : (hidden : Int) * V ≤ hidden * id := Int.mul_le_mul_of_nonneg_left h (by omega)
    rw [Int.mul_comm (V : Int)]
    omega

example : ∃ r, gatherOp (exact [2, 3, 2] id) (exact [2] fun k => if k = 0 then 2 else -3) 1 = some r ∧
    r.shape = [2, 2, 2] ∧ r.elem [1, 0, 1] = some 11 ∧ r.elem [1, 1, 1] = some 7 :=
  ⟨_, rfl, rfl, by decide +kernel, by decide +kernel⟩

example : ∃ r, gatherOp (exact [2, 3, 2] id) (exact [1] fun _ => 3) 1 = some r ∧ r.elem [1, 0, 1] = none :=
  ⟨_, rfl, by decide +kernel⟩

example : ∃ r, embed (exact [4, 3] id) 3 (exact [1, 2] fun k => if k = 0 then 3 else 4) = some r ∧
    r.elem [0, 0, 2] = some 11 ∧ r.elem [0, 1, 0] = none := ⟨_, rfl, by decide +kernel, by decide +kernel⟩

end Verif.Ops
