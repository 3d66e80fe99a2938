import Verif.Ops.Elewise
/-
C76: masked scatter.  Models mllm/core/aops/MaskedScatterOp.cpp (`reshape` L26-L28: the output is the
destination) and mllm/backends/cpu/ops/MaskedScatterOp.cpp (L16-L213), fp32 and fp16 (same loop).  The
source must not share memory with the destination (not modelled).
-/
namespace Verif.Ops
open Verif.Tensor

variable {α : Type}

/-! ### Model -/

/-- One dimension of `calculateBroadcastShape` (L30-L40). -/
def bc1 (a b : Nat) : Nat := if a = b then a else if a = 1 then b else if b = 1 then a else max a b

/-- `calculateBroadcastShape` (L16-L43). -/
def bcastShape (a b : List Nat) : List Nat :=
  let m := max a.length b.length
  List.zipWith bc1 (padTo m a) (padTo m b)

/-- `mask_indices[j] = indices[j + offset] % mask_shape[j]` (L113-L116) and the same for `dst`, `src`. -/
def modIdx (s i : List Nat) : List Nat :=
  List.zipWith (fun x d => x % d) (i.drop (i.length - s.length)) s

/-- The last write to a position wins, other positions keep their old contents. -/
def overlay (ws : List (Nat × Option α)) (old : Nat → Option α) (k : Nat) : Option α :=
  match ws.reverse.find? (fun w => w.1 = k) with
  | some w => w.2
  | none => old k

/-- The writes for one position of the broadcast shape (L104-L149).  A mask element that was never
written decides nothing: the position then has no value. -/
def scatterAt (dst : Tens α) (mask : Tens Nat) (src : Tens α) (ix : List Nat) : List (Nat × Option α) :=
  match mask.raw (lin mask.shape (modIdx mask.shape ix)) with
  | some 0 => []
  | some _ => [(lin dst.shape (modIdx dst.shape ix), src.raw (lin src.shape (modIdx src.shape ix)))]
  | none => [(lin dst.shape (modIdx dst.shape ix), none)]

/-- `CPUMaskedScatterOp::forward` (L76-L213): the destination afterwards. -/
def maskedScatter (dst : Tens α) (mask : Tens Nat) (src : Tens α) : Tens α :=
  let R := bcastShape (bcastShape dst.shape mask.shape) src.shape
  let ws := (List.range (numel R)).flatMap fun i => scatterAt dst mask src (coords R i)
  { dst with mem := fun a => if dst.off ≤ a then
      overlay ws (fun k => dst.mem (dst.off + k)) (a - dst.off).toNat else dst.mem a }

/-! ### Proofs -/

theorem overlay_eq {ws : List (Nat × Option α)} {old : Nat → Option α} {k : Nat} {v : Option α}
    (h1 : ∀ w ∈ ws, w.1 = k → w.2 = v) (h2 : (k, v) ∈ ws) : overlay ws old k = v := by
  unfold overlay
  cases hf : ws.reverse.find? (fun w => w.1 = k) with
  | some w =>
    have hm := List.mem_of_find?_eq_some hf
    have hp := List.find?_some hf
    exact h1 w (by simpa using hm) (by simpa using hp)
  | none =>
    have := List.find?_eq_none.mp hf (k, v) (by simpa using h2)
    simp at this

theorem overlay_old {ws : List (Nat × Option α)} {old : Nat → Option α} {k : Nat}
    (h : ∀ w ∈ ws, w.1 ≠ k) : overlay ws old k = old k := by
  unfold overlay
  cases hf : ws.reverse.find? (fun w => w.1 = k) with
  | some w =>
    have hm := List.mem_of_find?_eq_some hf
    have hp := List.find?_some hf
    exact absurd (by simpa using hp) (h w (by simpa using hm))
  | none => rfl

theorem modIdx_self {s i : List Nat} (h : InB s i) : modIdx s i = i := by
  unfold modIdx
  rw [h.length, Nat.sub_self, List.drop_zero]
  induction s generalizing i with
  | nil => cases i with
    | nil => rfl
    | cons _ _ => exact h.elim
  | cons d ds ih => cases i with
    | nil => exact h.elim
    | cons a as =>
      simp only [List.zipWith_cons_cons, Nat.mod_eq_of_lt h.1, ih h.2]

theorem zipMod_inB : ∀ {s j : List Nat}, j.length = s.length → 0 < numel s →
    InB s (List.zipWith (fun x d => x % d) j s)
  | [], [], _, _ => trivial
  | d :: ds, a :: as, hl, hp => by
    simp only [numel] at hp
    exact ⟨Nat.mod_lt _ (Nat.pos_of_mul_pos_right hp),
      zipMod_inB (by simpa using hl) (Nat.pos_of_mul_pos_left hp)⟩

theorem modIdx_inB {s i : List Nat} (hl : s.length ≤ i.length) (hp : 0 < numel s) : InB s (modIdx s i) :=
  zipMod_inB (by simp; omega) hp

/-- What the loop does when the destination has the broadcast shape. -/
theorem scatter_mod (dst : Tens α) (mask : Tens Nat) (src : Tens α) (hd : dst.Contig) (hm : mask.Contig)
    (hs : src.Contig) (hR : bcastShape (bcastShape dst.shape mask.shape) src.shape = dst.shape)
    (hml : mask.shape.length ≤ dst.shape.length) (hsl : src.shape.length ≤ dst.shape.length)
    (hmp : 0 < numel mask.shape) (hsp : 0 < numel src.shape) (i : List Nat) (hi : InB dst.shape i)
    (b : Nat) (hb : mask.elem (modIdx mask.shape i) = some b) :
    (maskedScatter dst mask src).elem i =
      if b = 0 then dst.elem i else src.elem (modIdx src.shape i) := by
  have hmask : mask.raw (lin mask.shape (modIdx mask.shape i)) = some b := by
    rw [hm.raw (modIdx_inB (by rw [hi.length]; exact hml) hmp), hb]
  have hsrc : src.raw (lin src.shape (modIdx src.shape i)) = src.elem (modIdx src.shape i) :=
    hs.raw (modIdx_inB (by rw [hi.length]; exact hsl) hsp)
  have haddr : (maskedScatter dst mask src).addr i = dst.off + lin dst.shape i := hd.addr hi
  show (maskedScatter dst mask src).mem ((maskedScatter dst mask src).addr i) = _
  rw [haddr]
  simp only [maskedScatter, hR]
  rw [if_pos (by omega), show dst.off + (lin dst.shape i : Int) - dst.off = (lin dst.shape i : Int) by ring,
    Int.toNat_natCast]
  have hmem : ∀ w, w ∈ (List.range (numel dst.shape)).flatMap
      (fun k => scatterAt dst mask src (coords dst.shape k)) →
      w.1 = lin dst.shape i → w ∈ scatterAt dst mask src i := by
    intro w hw he
    obtain ⟨k, hk, hw⟩ := List.mem_flatMap.mp hw
    have hc := coords_spec (List.mem_range.mp hk)
    have hw1 : w.1 = lin dst.shape (coords dst.shape k) := by
      unfold scatterAt at hw
      rw [modIdx_self hc.1] at hw
      split at hw <;> simp at hw <;> rw [hw]
    have : coords dst.shape k = i := lin_inj hc.1 hi (hw1.symm.trans he)
    rwa [this] at hw
  have hat : scatterAt dst mask src i =
      if b = 0 then [] else [(lin dst.shape i, src.elem (modIdx src.shape i))] := by
    unfold scatterAt
    rw [hmask, modIdx_self hi, hsrc]
    by_cases h0 : b = 0
    · subst h0; rfl
    · rw [if_neg h0]
      split
      · next h => injection h with h; exact absurd h h0
      · rfl
      · next h => cases h
  by_cases h0 : b = 0
  · rw [if_pos h0] at hat ⊢
    rw [overlay_old]
    · exact congrArg dst.mem (hd.addr hi).symm
    · intro w hw he
      have := hmem w hw he
      rw [hat] at this
      cases this
  · rw [if_neg h0] at hat ⊢
    apply overlay_eq
    · intro w hw he
      have := hmem w hw he
      rw [hat] at this
      simp at this
      rw [this]
    · refine List.mem_flatMap.mpr ⟨lin dst.shape i, List.mem_range.mpr (lin_lt hi), ?_⟩
      rw [coords_lin hi, hat]
      simp

theorem bc1_fit {d x : Nat} (h : x = d ∨ x = 1) : bc1 d x = d := by
  unfold bc1; split_ifs <;> omega

theorem bcast_fit {R s : List Nat} (h : ∀ k, k < s.length →
    s.getD k 0 = R.getD (R.length - s.length + k) 0 ∨ s.getD k 0 = 1) (hl : s.length ≤ R.length) :
    bcastShape R s = R := by
  unfold bcastShape
  rw [Nat.max_eq_left hl]
  have hp : padTo R.length R = R := by simp [padTo]
  dsimp only
  rw [hp]
  have hlen : (padTo R.length s).length = R.length := padTo_length hl
  apply List.ext_getElem
  · simp [hlen]
  · intro k h1 h2
    rw [List.getElem_zipWith]
    apply bc1_fit
    have hk : k < (padTo R.length s).length := by rw [hlen]; exact h2
    by_cases hlt : k < R.length - s.length
    · right
      simp only [padTo]
      rw [List.getElem_append_left (by simpa using hlt)]
      simp
    · have := h (k - (R.length - s.length)) (by omega)
      rw [show R.length - s.length + (k - (R.length - s.length)) = k by omega] at this
      have e1 : (padTo R.length s)[k] = s.getD (k - (R.length - s.length)) 0 := by
        simp only [padTo]
        rw [List.getElem_append_right (by simp; omega)]
        simp only [List.length_replicate]
        rw [List.getD_eq_getElem _ _ (by omega)]
      have e2 : R.getD k 0 = R[k] := List.getD_eq_getElem _ _ h2
      rw [e1, ← e2]; exact this

theorem mod_bidx : ∀ {s j : List Nat}, j.length = s.length →
    (∀ k, k < s.length → j.getD k 0 < s.getD k 0 ∨ s.getD k 0 = 1) →
    List.zipWith (fun x d => x % d) j s = List.zipWith (fun d x => if d = 1 then 0 else x) s j
  | [], [], _, _ => rfl
  | d :: ds, a :: as, hl, h => by
    simp only [List.zipWith_cons_cons]
    rw [mod_bidx (s := ds) (j := as) (by simpa using hl)]
    · congr 1
      have := h 0 (by simp)
      simp only [List.getD_cons_zero] at this
      split
      · next h1 => rw [h1, Nat.mod_one]
      · next h1 => exact Nat.mod_eq_of_lt (by tauto)
    · intro k hk
      simpa using h (k + 1) (by simpa using hk)

theorem modIdx_bidx {s R i : List Nat} (hi : InB R i) (hl : s.length ≤ R.length)
    (h : ∀ k, k < s.length → s.getD k 0 = R.getD (R.length - s.length + k) 0 ∨ s.getD k 0 = 1) :
    modIdx s i = bidx s i := by
  unfold modIdx bidx
  apply mod_bidx
  · rw [List.length_drop, hi.length]; omega
  · intro k hk
    rcases h k hk with h1 | h1
    · left
      rw [h1, hi.length]
      have := hi.get (R.length - s.length + k) (by omega)
      rwa [List.getD_eq_getElem?_getD, List.getElem?_drop, ← List.getD_eq_getElem?_getD]
    · exact Or.inr h1

/-- The shape `s` can be repeated to the shape `R`. -/
def Fits (s R : List Nat) : Prop := s.length ≤ R.length ∧ 0 < numel s ∧
  ∀ k, k < s.length → s.getD k 0 = R.getD (R.length - s.length + k) 0 ∨ s.getD k 0 = 1

/-- **C76, elementwise.** For every destination, mask and source (row-major) where mask and source can be
repeated to the destination's shape: afterwards the destination holds, wherever the mask is set, the source
element at the same (broadcast) position, and its old element everywhere else. -/
theorem scatter_where (dst : Tens α) (mask : Tens Nat) (src : Tens α) (hd : dst.Contig) (hm : mask.Contig)
    (hs : src.Contig) (hfm : Fits mask.shape dst.shape) (hfs : Fits src.shape dst.shape)
    (i : List Nat) (hi : InB dst.shape i) (b : Nat) (hb : mask.elem (bidx mask.shape i) = some b) :
    (maskedScatter dst mask src).shape = dst.shape ∧
    (maskedScatter dst mask src).elem i = if b = 0 then dst.elem i else src.elem (bidx src.shape i) := by
  refine ⟨rfl, ?_⟩
  rw [← modIdx_bidx hi hfs.1 hfs.2.2]
  rw [← modIdx_bidx hi hfm.1 hfm.2.2] at hb
  exact scatter_mod dst mask src hd hm hs (by rw [bcast_fit hfm.2.2 hfm.1, bcast_fit hfs.2.2 hfs.1])
    hfm.1 hfs.1 hfm.2.1 hfs.2.1 i hi b hb

/-- **C76 as the model code uses it fails.** `S` token embeddings, a mask over the tokens, and `N ≤ S`
image rows: the masked token `s` receives image row `s mod N`.  So if the image occupies the tokens
`p, …, p+N-1`, its first token receives row `p mod N`, which is the image's first row only when `N`
divides `p`. -/
theorem scatter_order_violated (S N D p : Nat) (hN : 0 < N) (hD : 0 < D) (hfit : p + N ≤ S)
    (dst src : Tens α) (mask : Tens Nat) (hd : dst.Contig) (hm : mask.Contig) (hs : src.Contig)
    (hds : dst.shape = [1, S, D]) (hms : mask.shape = [1, S, 1]) (hss : src.shape = [N, D])
    (hmask : ∀ s, s < S → mask.elem [0, s, 0] = some (if p ≤ s ∧ s < p + N then 1 else 0)) :
    (∀ s e, s < S → e < D → (maskedScatter dst mask src).elem [0, s, e] =
      if p ≤ s ∧ s < p + N then src.elem [s % N, e] else dst.elem [0, s, e]) ∧
    (¬ N ∣ p → ∃ row, row ≠ 0 ∧ row < N ∧
      ∀ e, e < D → (maskedScatter dst mask src).elem [0, p, e] = src.elem [row, e]) := by
  have key : ∀ s e, s < S → e < D → (maskedScatter dst mask src).elem [0, s, e] =
      if p ≤ s ∧ s < p + N then src.elem [s % N, e] else dst.elem [0, s, e] := by
    intro s e hs' he
    have hi : InB dst.shape [0, s, e] := by rw [hds]; exact ⟨by omega, hs', he, trivial⟩
    have hbm : bcastShape dst.shape mask.shape = dst.shape := by
      apply bcast_fit
      · rw [hms, hds]
        rintro (_ | _ | _ | k) hk
        · simp
        · simp
        · simp
        · simp at hk; omega
      · rw [hms, hds]; simp
    have hb3 : bcastShape (bcastShape dst.shape mask.shape) src.shape = dst.shape := by
      rw [hbm, hds, hss]
      have e1 : bc1 1 1 = 1 := rfl
      have e2 : bc1 S N = S := by unfold bc1; split_ifs <;> omega
      have e3 : bc1 D D = D := by unfold bc1; split_ifs <;> omega
      show List.zipWith bc1 [1, S, D] [1, N, D] = _
      simp [e1, e2, e3]
    have hmod : modIdx mask.shape [0, s, e] = [0, s, 0] := by
      rw [hms]
      show [0 % 1, s % S, e % 1] = _
      rw [Nat.mod_eq_of_lt hs', Nat.mod_one, Nat.mod_one]
    have hmods : modIdx src.shape [0, s, e] = [s % N, e] := by
      rw [hss]
      show [s % N, e % D] = _
      rw [Nat.mod_eq_of_lt he]
    rw [scatter_mod dst mask src hd hm hs hb3 (by rw [hms, hds]; simp) (by rw [hss, hds]; simp)
      (by rw [hms]; simp [numel]; omega) (by rw [hss]; simp [numel]; omega) _ hi _
      (by rw [hmod]; exact hmask s hs'), hmods]
    by_cases h : p ≤ s ∧ s < p + N
    · simp [if_pos h]
    · simp [if_neg h]
  refine ⟨key, fun hp => ⟨p % N, fun h => hp (Nat.dvd_of_mod_eq_zero h), Nat.mod_lt _ hN, fun e he => ?_⟩⟩
  rw [key p e (by omega) he, if_pos ⟨le_refl _, by omega⟩]

/-- Tokens 1 and 2 of 4 are the image: they receive image rows 1 and 0 instead of 0 and 1. -/
example : [0, 1, 2, 3].map (fun s => (maskedScatter (exact [1, 4, 1] fun k => 10 + k)
      (exact [1, 4, 1] fun k => if k = 1 ∨ k = 2 then 1 else 0) (exact [2, 1] fun k => k)).elem [0, s, 0]) =
    [10, 1, 0, 13].map some := by decide

/-- The hypotheses of `scatter_where` on a 2×2 destination, a column mask and a row source. -/
example : Fits [2, 1] [2, 2] ∧ Fits [2] [2, 2] ∧
    [[0, 0], [0, 1], [1, 0], [1, 1]].map (maskedScatter (exact [2, 2] fun k => 10 + k)
      (exact [2, 1] fun k => k) (exact [2] fun k => k)).elem = [10, 11, 0, 1].map some := by
  refine ⟨⟨by decide, by decide, ?_⟩, ⟨by decide, by decide, ?_⟩, by decide⟩ <;> decide

end Verif.Ops
