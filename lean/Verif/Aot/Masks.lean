import Verif.Aot.Lemmas

namespace Verif.Aot

/-- Row `i` of a mask for `ar` new tokens attends to the past columns from `lo i` up to `hi`, to the new tokens
before it and to itself, and to nothing else. -/
def MaskOk (ctx ar : Nat) (m : Mem Bool) (lo : Nat → Nat) (hi : Nat) : Prop :=
  ∀ i, i < ar → ∀ x, x < ctx →
    (m (i * ctx + x) = true ↔ (lo i ≤ x ∧ x < hi) ∨ (ctx - ar ≤ x ∧ x ≤ ctx - ar + i))

/-- The columns cut off by `initAttentionMask` (window `w`, `past` tokens). -/
def initCut (slide : Option Nat) (past i : Nat) : Nat :=
  match slide with
  | none => 0
  | some w => 2 * past + i + 1 - w

/-- The columns cut off by `updateAttentionMask`. -/
def updCut (slide : Option Nat) (hi i : Nat) : Nat :=
  match slide with
  | none => 0
  | some w => hi + i + 1 - w

/-- The argument of the modelled functions. -/
def slideArg (slide : Option Nat) : Option (Int × List Int) := slide.map (fun w => ((w : Int), []))

theorem fill_row {m : Mem Bool} {ctx ar i a n : Nat} {v : Bool} (hi : i < ar) (h : a + n ≤ ctx) :
    ∃ m', fillN m (ar * ctx) (i * ctx + a) (n : Int) v = some m' ∧
      ∀ r x, x < ctx → m' (r * ctx + x) = if r = i ∧ a ≤ x ∧ x < a + n then v else m (r * ctx + x) := by
  have := row_le hi h
  refine ⟨_, fillN_some (by omega), ?_⟩
  intro r x hx
  have hc := cell_iff (i := i) (r := r) hx h
  by_cases hin : r = i ∧ a ≤ x ∧ x < a + n
  · rw [if_pos hin, if_pos (by have := hc.2 hin; omega)]
  · rw [if_neg hin, if_neg (by have := mt hc.1 hin; omega)]

theorem init_row {ctx ar past : Nat} {slide : Option Nat} {m : Mem Bool} {i : Nat} (hi : i < ar) (har : ar ≤ ctx)
    (hp : past ≤ ctx - ar) (hcut : ∀ k, k < ar → initCut slide past k ≤ ctx - ar)
    (hm : ∀ r x, x < ctx → r < i → (m (r * ctx + x) = true ↔
      (initCut slide past r ≤ x ∧ x < past) ∨ (ctx - ar ≤ x ∧ x ≤ ctx - ar + r)))
    (hz : ∀ r x, x < ctx → r < ar → i ≤ r → m (r * ctx + x) = false) :
    ∃ m', initRow ctx ar (iota ar) past (slideArg slide) i m = some m' ∧
      (∀ r x, x < ctx → r < i + 1 → (m' (r * ctx + x) = true ↔
        (initCut slide past r ≤ x ∧ x < past) ∨ (ctx - ar ≤ x ∧ x ≤ ctx - ar + r))) ∧
      (∀ r x, x < ctx → r < ar → i + 1 ≤ r → m' (r * ctx + x) = false) := by
  have hg : (iota ar)[i]? = some ((i : Int) - 1) := by
    unfold iota
    rw [List.getElem?_map, List.getElem?_range hi]
    rfl
  -- the past part
  obtain ⟨m1, e1, h1, h1'⟩ : ∃ m1, (if (i : Int) - 1 < 0 then fillN m (ar * ctx) (i * ctx) past true
      else copy m (ar * ctx) (i * ctx) m (ar * ctx) (((i : Int) - 1).toNat * ctx) ctx) = some m1 ∧
      (∀ r x, x < ctx → r ≠ i → m1 (r * ctx + x) = m (r * ctx + x)) ∧
      ∀ x, x < ctx → (m1 (i * ctx + x) = true ↔
        (initCut slide past (i - 1) ≤ x ∧ x < past ∧ 0 < i) ∨ (i = 0 ∧ x < past) ∨ (ctx - ar ≤ x ∧ x < ctx - ar + i)) := by
    by_cases h0 : i = 0
    · subst h0
      rw [if_pos (by norm_num)]
      obtain ⟨m1, e, h⟩ := fill_row (m := m) (ctx := ctx) (ar := ar) (i := 0) (a := 0) (n := past) (v := true) hi (by omega)
      refine ⟨m1, e, ?_, ?_⟩
      · intro r x hx hr
        rw [h r x hx, if_neg (by omega)]
      · intro x hx
        rw [h 0 x hx, hz 0 x hx hi le_rfl]
        by_cases hxp : x < past
        · rw [if_pos (by omega)]
          exact ⟨fun _ => Or.inr (Or.inl ⟨rfl, hxp⟩), fun _ => rfl⟩
        · rw [if_neg (by omega)]
          constructor
          · intro h; cases h
          · omega
    · rw [if_neg (by omega)]
      have hq : ((i : Int) - 1).toNat = i - 1 := by omega
      rw [hq]
      have a1 := row_le hi (Nat.le_refl ctx)
      have a2 := row_le (show i - 1 < ar by omega) (Nat.le_refl ctx)
      refine ⟨_, copy_some (by omega) (by omega), ?_, ?_⟩
      · intro r x hx hr
        have hc := cell_iff (a := 0) (n := ctx) (i := i) (r := r) hx (by omega)
        rw [if_neg (by have := mt hc.1 (by omega); omega)]
      · intro x hx
        rw [if_pos (by omega), show (i - 1) * ctx + (i * ctx + x - i * ctx) = (i - 1) * ctx + x by omega, hm (i - 1) x hx (by omega)]
        omega
  -- itself
  obtain ⟨m2, e2, h2⟩ := fill_row (m := m1) (ctx := ctx) (ar := ar) (i := i) (a := ctx - ar + i) (n := 1) (v := true) hi (by omega)
  have hrow2 : ∀ x, x < ctx → (m2 (i * ctx + x) = true ↔
        (initCut slide past (i - 1) ≤ x ∧ x < past ∧ 0 < i) ∨ (i = 0 ∧ x < past) ∨ (ctx - ar ≤ x ∧ x ≤ ctx - ar + i)) := by
    intro x hx
    rw [h2 i x hx]
    by_cases hself : x = ctx - ar + i
    · rw [if_pos (by omega)]
      exact ⟨fun _ => Or.inr (Or.inr (by omega)), fun _ => rfl⟩
    · rw [if_neg (by omega), h1' x hx]
      omega
  have hoth2 : ∀ r x, x < ctx → r ≠ i → m2 (r * ctx + x) = m (r * ctx + x) := by
    intro r x hx hr
    rw [h2 r x hx, if_neg (by omega), h1 r x hx hr]
  -- the window
  obtain ⟨m3, e3, h3⟩ : ∃ m3, (match slideArg slide with
      | none => some m2
      | some (w, po) =>
        (offsetAt po i).bind fun o =>
          if w - (o + 1) - (past : Int) < past then fillN m2 (ar * ctx) (i * ctx) (past - (w - (o + 1) - past)) false else some m2) = some m3 ∧
      ∀ r x, x < ctx → m3 (r * ctx + x) = if r = i ∧ x < initCut slide past i then false else m2 (r * ctx + x) := by
    cases slide with
    | none =>
      refine ⟨m2, rfl, fun r x hx => ?_⟩
      rw [if_neg (by unfold initCut; simp)]
    | some w =>
      have hci := hcut i hi
      have hq : initCut (some w) past i = 2 * past + i + 1 - w := rfl
      generalize initCut (some w) past i = q at hci hq ⊢
      show ∃ m3, (if (w : Int) - ((i : Int) + 1) - (past : Int) < past then
        fillN m2 (ar * ctx) (i * ctx) (past - ((w : Int) - ((i : Int) + 1) - past)) false else some m2) = some m3 ∧ _
      by_cases hw : (w : Int) - ((i : Int) + 1) - (past : Int) < past
      · rw [if_pos hw]
        obtain ⟨m3, e, h⟩ := fill_row (m := m2) (ctx := ctx) (ar := ar) (i := i) (a := 0) (n := q)
          (v := false) hi (by omega)
        refine ⟨m3, ?_, ?_⟩
        · rw [← e]
          congr 1
          omega
        · intro r x hx
          rw [h r x hx]
          by_cases hb : r = i ∧ x < q
          · rw [if_pos (by omega), if_pos hb]
          · rw [if_neg (by omega), if_neg hb]
      · rw [if_neg hw]
        refine ⟨m2, rfl, fun r x hx => ?_⟩
        rw [if_neg (by omega)]
  refine ⟨m3, ?_, ?_, ?_⟩
  · unfold initRow
    simp only [hg, Option.bind_some]
    rw [e1, Option.bind_some]
    rw [show i * ctx + (ctx - ar) + i = i * ctx + (ctx - ar + i) by omega]
    have : fillN m1 (ar * ctx) (i * ctx + (ctx - ar + i)) 1 true = some m2 := e2
    rw [this, Option.bind_some]
    exact e3
  · intro r x hx hr
    rw [h3 r x hx]
    by_cases hri : r = i
    · subst hri
      have hmono : initCut slide past (r - 1) ≤ initCut slide past r := by
        unfold initCut; cases slide <;> simp; omega
      have hci := hcut r hi
      by_cases hx' : x < initCut slide past r
      · rw [if_pos ⟨rfl, hx'⟩]
        constructor
        · intro h; cases h
        · omega
      · rw [if_neg (by omega), hrow2 x hx]
        omega
    · rw [if_neg (by omega), hoth2 r x hx hri, hm r x hx (by omega)]
  · intro r x hx hr hir
    rw [h3 r x hx, if_neg (by omega), hoth2 r x hx (by omega), hz r x hx hr (by omega)]

/-- `initAttentionMask` for a causal chunk. -/
theorem initMask_spec {ctx ar past : Nat} {slide : Option Nat} {m : Mem Bool} (har : ar ≤ ctx)
    (hp : past ≤ ctx - ar) (hcut : ∀ k, k < ar → initCut slide past k ≤ ctx - ar) :
    ∃ m', initMask ctx ar (iota ar) past (slideArg slide) m = some m' ∧ MaskOk ctx ar m' (initCut slide past) past := by
  unfold initMask
  rw [if_neg (by simp [iota])]
  rw [fillN_some (by omega), Option.bind_some]
  obtain ⟨t, e, h1, _⟩ := loop_spec (f := initRow ctx ar (iota ar) past (slideArg slide))
    (I := fun k t => (∀ r x, x < ctx → r < k → (t (r * ctx + x) = true ↔
        (initCut slide past r ≤ x ∧ x < past) ∨ (ctx - ar ≤ x ∧ x ≤ ctx - ar + r))) ∧
      (∀ r x, x < ctx → r < ar → k ≤ r → t (r * ctx + x) = false)) ar
    (s := fun i => if 0 ≤ i ∧ i < 0 + ar * ctx then false else m i)
    ⟨by intro r x _ h; omega, by
      intro r x hx hr _
      have := row_le hr (show x + 1 ≤ ctx from hx)
      show (if 0 ≤ r * ctx + x ∧ r * ctx + x < 0 + ar * ctx then false else m (r * ctx + x)) = false
      rw [if_pos (by omega)]⟩
    (fun i t hi h => init_row hi har hp hcut h.1 h.2)
  exact ⟨t, e, fun i hi x hx => h1 i x hx hi⟩

theorem upd_row {ctx ar past n : Nat} {slide : Option Nat} {m : Mem Bool} {i : Nat} (hi : i < ar)
    (hp : past + n ≤ ctx) (hcut : ∀ k, k < ar → updCut slide (past + n) k ≤ ctx) :
    ∃ m', updRow ctx ar past n (slideArg slide) i m = some m' ∧
      ∀ r x, x < ctx → m' (r * ctx + x) =
        if r = i then (if x < updCut slide (past + n) i then false else if past ≤ x ∧ x < past + n then true else m (r * ctx + x))
        else m (r * ctx + x) := by
  obtain ⟨m1, e1, h1⟩ := fill_row (m := m) (ctx := ctx) (ar := ar) (i := i) (a := past) (n := n) (v := true) hi hp
  obtain ⟨m3, e3, h3⟩ : ∃ m3, (match slideArg slide with
      | none => some m1
      | some (w, po) =>
        (offsetAt po i).bind fun o =>
          if w - (o + 1) < (past + n : Int) then fillN m1 (ar * ctx) (i * ctx) (past + n - (w - (o + 1))) false else some m1) = some m3 ∧
      ∀ r x, x < ctx → m3 (r * ctx + x) = if r = i ∧ x < updCut slide (past + n) i then false else m1 (r * ctx + x) := by
    cases slide with
    | none =>
      refine ⟨m1, rfl, fun r x hx => ?_⟩
      rw [if_neg (by unfold updCut; simp)]
    | some w =>
      have hci := hcut i hi
      have hq : updCut (some w) (past + n) i = past + n + i + 1 - w := rfl
      generalize updCut (some w) (past + n) i = q at hci hq ⊢
      show ∃ m3, (if (w : Int) - ((i : Int) + 1) < (past + n : Int) then
        fillN m1 (ar * ctx) (i * ctx) (past + n - ((w : Int) - ((i : Int) + 1))) false else some m1) = some m3 ∧ _
      by_cases hw : (w : Int) - ((i : Int) + 1) < (past + n : Int)
      · rw [if_pos hw]
        obtain ⟨m3, e, h⟩ := fill_row (m := m1) (ctx := ctx) (ar := ar) (i := i) (a := 0) (n := q)
          (v := false) hi (by omega)
        refine ⟨m3, ?_, ?_⟩
        · rw [← e]
          congr 1
          omega
        · intro r x hx
          rw [h r x hx]
          by_cases hb : r = i ∧ x < q
          · rw [if_pos (by omega), if_pos hb]
          · rw [if_neg (by omega), if_neg hb]
      · rw [if_neg hw]
        refine ⟨m1, rfl, fun r x hx => ?_⟩
        rw [if_neg (by omega)]
  refine ⟨m3, ?_, ?_⟩
  · unfold updRow
    simp only
    rw [e1, Option.bind_some]
    exact e3
  · intro r x hx
    rw [h3 r x hx, h1 r x hx]
    by_cases hr : r = i
    · rw [if_pos hr]
      by_cases hc : x < updCut slide (past + n) i
      · rw [if_pos ⟨hr, hc⟩, if_pos hc]
      · rw [if_neg (fun h => hc h.2), if_neg hc]
        by_cases hq : past ≤ x ∧ x < past + n
        · rw [if_pos ⟨hr, hq⟩, if_pos hq]
        · rw [if_neg (fun h => hq h.2), if_neg hq]
    · rw [if_neg (fun h => hr h.1), if_neg (fun h => hr h.1), if_neg hr]

theorem updMask_cells {ctx ar past n : Nat} {slide : Option Nat} {m : Mem Bool}
    (hp : past + n ≤ ctx) (hcut : ∀ k, k < ar → updCut slide (past + n) k ≤ ctx) :
    ∃ m', updMask ctx ar past n (slideArg slide) m = some m' ∧
      ∀ r x, r < ar → x < ctx → m' (r * ctx + x) =
        if x < updCut slide (past + n) r then false else if past ≤ x ∧ x < past + n then true else m (r * ctx + x) := by
  unfold updMask
  obtain ⟨t, e, h⟩ := loop_spec (f := updRow ctx ar past n (slideArg slide))
    (I := fun k t => ∀ r x, r < ar → x < ctx → t (r * ctx + x) = if r < k then
        (if x < updCut slide (past + n) r then false else if past ≤ x ∧ x < past + n then true else m (r * ctx + x))
        else m (r * ctx + x)) (s := m) ar
    (by intro r x _ _; rw [if_neg (by omega)])
    (by
      intro i t hi ih
      obtain ⟨t', e, h⟩ := upd_row (m := t) hi hp hcut
      refine ⟨t', e, fun r x hr hx => ?_⟩
      rw [h r x hx, ih r x hr hx]
      by_cases hri : r = i
      · subst hri
        rw [if_pos rfl, if_neg (lt_irrefl _), if_pos (show r < r + 1 by omega)]
      · rw [if_neg hri]
        by_cases hlt : r < i
        · rw [if_pos hlt, if_pos (show r < i + 1 by omega)]
        · rw [if_neg hlt, if_neg (by omega)])
  exact ⟨t, e, fun r x hr hx => by rw [h r x hr hx, if_pos hr]⟩

/-- `updateAttentionMask` after a chunk of `n` tokens. -/
theorem updMask_spec {ctx ar past n : Nat} {slide : Option Nat} {m : Mem Bool} {lo : Nat → Nat} (har : ar ≤ ctx)
    (hp : past + n ≤ ctx - ar) (hcut : ∀ k, k < ar → updCut slide (past + n) k ≤ ctx - ar)
    (hlo : ∀ k, k < ar → lo k ≤ past ∨ past + n ≤ updCut slide (past + n) k ∨ lo k ≤ updCut slide (past + n) k)
    (hm : MaskOk ctx ar m lo past) :
    ∃ m', updMask ctx ar past n (slideArg slide) m = some m' ∧
      MaskOk ctx ar m' (fun i => max (lo i) (updCut slide (past + n) i)) (past + n) := by
  obtain ⟨t, e, h⟩ := updMask_cells (m := m) (ar := ar) (slide := slide) (show past + n ≤ ctx by omega)
    (fun k hk => le_trans (hcut k hk) (by omega))
  refine ⟨t, e, fun i hi x hx => ?_⟩
  have hm' := hm i hi x hx
  have hc := hcut i hi
  have hl := hlo i hi
  show t (i * ctx + x) = true ↔ (max (lo i) (updCut slide (past + n) i) ≤ x ∧ x < past + n) ∨ (ctx - ar ≤ x ∧ x ≤ ctx - ar + i)
  rw [h i x hi hx]
  by_cases h1 : x < updCut slide (past + n) i
  · rw [if_pos h1]
    constructor
    · intro h; cases h
    · omega
  · rw [if_neg h1]
    by_cases h2 : past ≤ x ∧ x < past + n
    · rw [if_pos h2]
      refine ⟨fun _ => ?_, fun _ => rfl⟩
      omega
    · rw [if_neg h2, hm']
      omega

end Verif.Aot
