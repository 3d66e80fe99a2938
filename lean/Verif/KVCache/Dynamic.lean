import Verif.KVCache.Static
/-
C42: the dynamic cache.
-/
namespace Verif.KVCache
open Verif.Tensor
variable {α : Type}

/-! ### Specification -/

/-- A token position of a whole batch: batch element, head, component. -/
abbrev BTok (α : Type) := Nat → Nat → Nat → Option α

abbrev BHist (α : Type) := Nat → List (BTok α) × List (BTok α)

/-- Heads seen by attention per key/value head. -/
def DCfg.rep (c : DCfg) : Nat := if c.fa2 then 1 else c.qHeads / c.kvHeads

/-- A `[B, kv_heads, len, D]` input; in eager mode it must be row-major (see
`dynamic_view_violated`). -/
structure DChunk (c : DCfg) (B D len : Nat) (t : Tens α) : Prop where
  shape : t.shape = [B, c.kvHeads, len, D]
  rows : c.fa2 = false → t.Contig

def btokens (t : Tens α) : List (BTok α) :=
  (List.range (t.shape.getD 2 0)).map fun s b h d => t.elem [b, h, s, d]

/-- `K` shows exactly the tokens `toks`. -/
def DShows (c : DCfg) (B D : Nat) (toks : List (BTok α)) (K : Tens α) : Prop :=
  K.shape = [B, c.kvHeads * c.rep, toks.length, D] ∧
  ∀ b q s d tok, b < B → q < c.kvHeads * c.rep → toks[s]? = some tok → d < D →
    K.elem [b, q, s, d] = tok b (q / c.rep) d

/-- One append: layer, keys, values. -/
abbrev DOp (α : Type) := Nat × Tens α × Tens α

def dspecStep (h : BHist α) (o : DOp α) : BHist α :=
  upd h o.1 ((h o.1).1 ++ btokens o.2.1, (h o.1).2 ++ btokens o.2.2)

def dspecRun (os : List (DOp α)) : BHist α := os.foldl dspecStep (fun _ => ([], []))

def drun (c : DCfg) (os : List (DOp α)) : Except Fail (DState α) :=
  os.foldlM (fun s o => (dynUpdate c s o.1 o.2.1 o.2.2).map (·.1)) (fun _ => none)

/-! ### Proofs -/

theorem btokens_get {t : Tens α} {B H len D s : Nat} (ht : t.shape = [B, H, len, D]) {tok : BTok α}
    (h : (btokens t)[s]? = some tok) : s < len ∧ tok = fun b h d => t.elem [b, h, s, d] := by
  unfold btokens at h
  rw [ht] at h
  simp only [List.getElem?_map, List.getD_cons_succ, List.getD_cons_zero] at h
  have hs : s < len := by
    by_contra hh
    rw [List.getElem?_eq_none (by simpa using hh)] at h
    simp at h
  rw [List.getElem?_range hs] at h
  simp only [Option.map_some, Option.some.injEq] at h
  exact ⟨hs, h.symm⟩

/-- Head replication. -/
theorem dshows_rep (c : DCfg) {B D len : Nat} {t : Tens α} (ht : DChunk c B D len t) :
    ∃ t', (if c.fa2 then some t else repeatOp t (c.qHeads / c.kvHeads) 1) = some t' ∧
      DShows c B D (btokens t) t' := by
  have hlen : (btokens t).length = len := by simp [btokens, ht.shape]
  cases hf : c.fa2 with
  | true =>
    refine ⟨t, rfl, ?_, ?_⟩
    · simp [ht.shape, DCfg.rep, hf, hlen]
    · intro b q s d tok _ _ hs _
      rw [(btokens_get ht.shape hs).2]
      simp [DCfg.rep, hf]
  | false =>
    obtain ⟨r, r1, r2, -, r4⟩ := repeat_elements_partial t [B] [len, D] c.kvHeads (c.qHeads / c.kvHeads)
      ht.shape (ht.rows hf)
    have hrep : c.rep = c.qHeads / c.kvHeads := by simp [DCfg.rep, hf]
    refine ⟨r, ?_, ?_, ?_⟩
    · rw [← r1]; rfl
    · rw [r2, hlen, hrep]; rfl
    · intro b q s d tok hb hq hs hd
      obtain ⟨hs', rfl⟩ := btokens_get ht.shape hs
      have hpos : 0 < c.rep := by
        rcases Nat.eq_zero_or_pos c.rep with h | h
        · rw [h] at hq; omega
        · exact h
      have := (r4 [b] (q / c.rep) [s, d] (q % c.rep) rfl (by
        rw [ht.shape]
        exact ⟨hb, by rw [Nat.div_lt_iff_lt_mul hpos]; exact hq, hs', hd, trivial⟩)
        (by rw [← hrep]; exact Nat.mod_lt _ hpos)).2
      rw [← hrep, Nat.mul_comm, Nat.div_add_mod] at this
      exact this

theorem dshows_concat (c : DCfg) {B D : Nat} {a b : List (BTok α)} {A T : Tens α}
    (hA : DShows c B D a A) (hT : DShows c B D b T) :
    ∃ r, concat [A, T] 2 = some r ∧ DShows c B D (a ++ b) r := by
  obtain ⟨r, r1, r2, -, r4⟩ := concat_elements [A, T] (by simp) [B, c.kvHeads * c.rep] [D] 2
    (Or.inl rfl) (by
      intro t ht
      simp only [List.mem_cons, List.not_mem_nil, or_false] at ht
      rcases ht with rfl | rfl
      · exact ⟨_, hA.1⟩
      · exact ⟨_, hT.1⟩)
  refine ⟨r, r1, ?_, ?_⟩
  · rw [r2]; simp [catSize, hA.1, hT.1]
  · intro i q s d tok hi hq hs hd
    by_cases hh : a.length ≤ s
    · rw [List.getElem?_append_right hh] at hs
      have hs' : s - a.length < b.length := by
        by_contra hc
        rw [List.getElem?_eq_none (by omega)] at hs; cases hs
      have := (r4 [A] T [] [i, q] (s - a.length) [d] rfl rfl (by
        rw [hT.1]; exact ⟨hi, hq, hs', hd, trivial⟩)).2
      have e : catSize [B, c.kvHeads * c.rep].length [A] + (s - a.length) = s := by
        simp [catSize, hA.1]; omega
      rw [e] at this
      exact this.trans (hT.2 i q _ d tok hi hq hs hd)
    · rw [List.getElem?_append_left (by omega)] at hs
      have := (r4 [] A [T] [i, q] s [d] rfl rfl (by
        rw [hA.1]; exact ⟨hi, hq, by omega, hd, trivial⟩)).2
      have e : catSize [B, c.kvHeads * c.rep].length ([] : List (Tens α)) + s = s := by simp [catSize]
      rw [e] at this
      exact this.trans (hA.2 i q _ d tok hi hq hs hd)

def DInv (c : DCfg) (B D : Nat) (s : DState α) (h : BHist α) : Prop :=
  ∀ l, match s l with
    | none => h l = ([], [])
    | some (K, V) => DShows c B D (h l).1 K ∧ DShows c B D (h l).2 V

theorem dyn_step (c : DCfg) {B D len : Nat} {s : DState α} {h : BHist α} (hi : DInv c B D s h) (l : Nat)
    {k v : Tens α} (hk : DChunk c B D len k) (hv : DChunk c B D len v) :
    ∃ s' K V, dynUpdate c s l k v = .ok (s', (K, V)) ∧ DInv c B D s' (dspecStep h (l, k, v)) ∧
      DShows c B D ((h l).1 ++ btokens k) K ∧ DShows c B D ((h l).2 ++ btokens v) V ∧
      s' l = some (K, V) ∧ ∀ i, i ≠ l → s' i = s i := by
  obtain ⟨k', ek, fk⟩ := dshows_rep c hk
  obtain ⟨v', ev, fv⟩ := dshows_rep c hv
  have hchk : ¬ (k.shape.getD 1 0 ≠ c.kvHeads ∨ v.shape.getD 1 0 ≠ c.kvHeads) := by
    simp [hk.shape, hv.shape]
  have hil := hi l
  have fin : ∀ K V, DShows c B D ((h l).1 ++ btokens k) K → DShows c B D ((h l).2 ++ btokens v) V →
      DInv c B D (upd s l (some (K, V))) (dspecStep h (l, k, v)) := by
    intro K V h1 h2 i
    by_cases e : i = l
    · subst e
      simp only [upd, if_true, dspecStep]
      exact ⟨h1, h2⟩
    · simp only [upd, if_neg e, dspecStep]
      exact hi i
  cases hs : s l with
  | none =>
    rw [hs] at hil
    simp only at hil
    have h1 : DShows c B D ((h l).1 ++ btokens k) k' := by rw [hil]; exact fk
    have h2 : DShows c B D ((h l).2 ++ btokens v) v' := by rw [hil]; exact fv
    refine ⟨_, k', v', ?_, fin _ _ h1 h2, h1, h2, by simp [upd], fun i hi => by simp [upd, hi]⟩
    unfold dynUpdate
    rw [if_neg hchk, ek, ev]
    simp only [hs]
  | some p =>
    obtain ⟨K, V⟩ := p
    rw [hs] at hil
    simp only at hil
    obtain ⟨K', g1, g2⟩ := dshows_concat c hil.1 fk
    obtain ⟨V', g3, g4⟩ := dshows_concat c hil.2 fv
    refine ⟨_, K', V', ?_, fin _ _ g2 g4, g2, g4, by simp [upd], fun i hi => by simp [upd, hi]⟩
    unfold dynUpdate
    rw [if_neg hchk, ek, ev]
    simp only [hs, g1, g3]

/-! ### C42 -/

/-- C42. For any sequence of appends (any layers, any chunk lengths, batch size and head dimension
fixed), every append succeeds and returns exactly the tokens of that layer's history followed by the
new ones; the other layers keep theirs. Row-major inputs in eager mode; any strides in fa2 mode. -/
theorem dynamic_history_partial (c : DCfg) (B D : Nat) (os : List (DOp α)) (l len : Nat) (k v : Tens α)
    (hos : ∀ o ∈ os, ∃ n, DChunk c B D n o.2.1 ∧ DChunk c B D n o.2.2)
    (hk : DChunk c B D len k) (hv : DChunk c B D len v) :
    ∃ s s' K V, drun c os = .ok s ∧ dynUpdate c s l k v = .ok (s', (K, V)) ∧
      DShows c B D ((dspecRun os l).1 ++ btokens k) K ∧ DShows c B D ((dspecRun os l).2 ++ btokens v) V ∧
      s' l = some (K, V) ∧ ∀ i, i ≠ l → s' i = s i := by
  have key : ∀ (os : List (DOp α)) (s : DState α) (h : BHist α), DInv c B D s h →
      (∀ o ∈ os, ∃ n, DChunk c B D n o.2.1 ∧ DChunk c B D n o.2.2) →
      ∃ s', os.foldlM (fun s o => (dynUpdate c s o.1 o.2.1 o.2.2).map (·.1)) s = .ok s' ∧
        DInv c B D s' (os.foldl dspecStep h) := by
    intro os
    induction os with
    | nil => intro s h hi _; exact ⟨s, rfl, hi⟩
    | cons o os ih =>
      intro s h hi ho
      obtain ⟨n, a1, a2⟩ := ho o (by simp)
      obtain ⟨s1, K, V, e, i1, -⟩ := dyn_step c hi o.1 a1 a2
      obtain ⟨s2, e2, i2⟩ := ih s1 _ i1 (fun o h => ho o (by simp [h]))
      refine ⟨s2, ?_, i2⟩
      rw [List.foldlM_cons, e]
      exact e2
  obtain ⟨s, e, hi⟩ := key os (fun _ => none) (fun _ => ([], [])) (fun l => rfl) hos
  obtain ⟨s', K, V, e', -, f1, f2, f3⟩ := dyn_step c hi l hk hv
  exact ⟨s, s', K, V, e, e', f1, f2, f3⟩

/-- Hypotheses met: two appends on two layers, then a third. -/
example : let c : DCfg := ⟨4, 2, false⟩
    (∀ o ∈ [((0, fresh [1, 2, 3, 2] fun i => some i, fresh [1, 2, 3, 2] fun i => some i) : DOp Nat),
        (1, fresh [1, 2, 1, 2] fun i => some i, fresh [1, 2, 1, 2] fun i => some i)],
      ∃ n, DChunk c 1 2 n o.2.1 ∧ DChunk c 1 2 n o.2.2) ∧
    DChunk c 1 2 2 (fresh [1, 2, 2, 2] fun i => some i) := by
  refine ⟨?_, ⟨rfl, fun _ => fresh_contig _ _⟩⟩
  intro o ho
  simp only [List.mem_cons, List.not_mem_nil, or_false] at ho
  rcases ho with rfl | rfl
  · exact ⟨3, ⟨rfl, fun _ => fresh_contig _ _⟩, ⟨rfl, fun _ => fresh_contig _ _⟩⟩
  · exact ⟨1, ⟨rfl, fun _ => fresh_contig _ _⟩, ⟨rfl, fun _ => fresh_contig _ _⟩⟩

/-- C42 is violated for strided inputs in eager mode: keys passed as a view (here one half of a
`[1,2,1,2]` projection, obtained with `split`) are stored wrongly. -/
theorem dynamic_view_violated : ∃ (c : DCfg) (k : Tens Nat) (s' : DState Nat) (K V : Tens Nat),
    (split (fresh [1, 2, 1, 2] (fun i => some i)) [1, 1] 3 >>= fun rs => rs[0]?) = some k ∧
    k.shape = [1, c.kvHeads, 1, 1] ∧ c.qHeads = c.kvHeads ∧
    dynUpdate c (fun _ => none) 0 k k = .ok (s', (K, V)) ∧ K.elem [0, 1, 0, 0] ≠ k.elem [0, 1, 0, 0] :=
  ⟨⟨2, 2, false⟩, _, _, _, _, rfl, rfl, rfl, rfl, by decide +kernel⟩

end Verif.KVCache
