import Verif.KVCache.Lemmas
/-
C21, C22: the static cache.
-/
namespace Verif.KVCache
open Verif.Tensor
variable {α : Type}

/-! ### Specification: a layer remembers the list of tokens appended to it -/

/-- One token: component `d` of key/value head `h`. -/
abbrev Tok (α : Type) := Nat → Nat → Option α

/-- History of every layer: key tokens and value tokens. -/
abbrev Hist (α : Type) := Nat → List (Tok α) × List (Tok α)

/-- A `[1, kv_heads, len, dim]` tensor whose tokens are stored one after the other (any head stride). -/
structure Chunk (c : Cfg) (len : Nat) (t : Tens α) : Prop where
  shape : t.shape = [1, c.kvHeads, len, c.dim]
  stride : ∃ a b : Int, t.stride = [a, b, c.dim, 1]

/-- The tokens of a chunk. -/
def tokens (t : Tens α) : List (Tok α) :=
  (List.range (t.shape.getD 2 0)).map fun s h d => t.elem [0, h, s, d]

/-- The caller's operations. -/
inductive Op (α : Type) where
  | update (layer : Nat) (k v : Tens α)
  | clear
  | setCnt (n : Nat)

/-- Specification of one operation. -/
def specStep (h : Hist α) : Op α → Hist α
  | .update l k v => upd h l ((h l).1 ++ tokens k, (h l).2 ++ tokens v)
  | .clear => fun _ => ([], [])
  | .setCnt n => fun l => ((h l).1.take n, (h l).2.take n)

/-- Appends stay within capacity; `setCurrentSeqCnt` only shortens. `L` is the number of layers. -/
def Allowed (c : Cfg) (L : Nat) (h : Hist α) : Op α → Prop
  | .update l k v => l < L ∧ ∃ len, Chunk c len k ∧ Chunk c len v ∧ (h l).1.length + len ≤ c.maxLen
  | .clear => True
  | .setCnt n => ∀ l, l < L → n ≤ (h l).1.length

def Legal (c : Cfg) (L : Nat) (h : Hist α) : List (Op α) → Prop
  | [] => True
  | o :: os => Allowed c L h o ∧ Legal c L (specStep h o) os

def specRun (h : Hist α) (os : List (Op α)) : Hist α := os.foldl specStep h

def step (c : Cfg) (s : State α) : Op α → Except Fail (State α)
  | .update l k v => (update c s l k v).map (·.1)
  | .clear => .ok (clear s)
  | .setCnt n => .ok (setCnt s n)

def run (c : Cfg) (s : State α) (os : List (Op α)) : Except Fail (State α) := os.foldlM (step c) s

/-- Eager mode, heads divide evenly, sizes representable. -/
structure Cfg.Ok (c : Cfg) : Prop where
  eager : c.fa2 = false
  heads : c.kvHeads * c.rep = c.qHeads
  small : (c.qHeads : Int) < kAll ∧ (c.maxLen : Int) < kAll ∧ (c.dim : Int) < kAll

/-- `K` shows exactly the tokens `toks`: query head `q` sees key/value head `q / rep`. -/
def Shows (c : Cfg) (toks : List (Tok α)) (K : Tens α) : Prop :=
  K.shape = [1, c.qHeads, toks.length, c.dim] ∧
  ∀ q s d tok, q < c.qHeads → toks[s]? = some tok → d < c.dim → K.elem [0, q, s, d] = tok (q / c.rep) d

/-! ### Proofs -/

theorem bufT_elem (c : Cfg) (h : c.fa2 = false) (m : Mem α) (q s d : Nat) :
    (bufT c m).elem [0, q, s, d] = m (pos c q s d) := by
  have hs : c.shape = [1, c.qHeads, c.maxLen, c.dim] := by simp [Cfg.shape, h]
  simp only [bufT, hs, Tens.elem, Tens.addr, rowStrides, dot, numel, pos]
  congr 1
  push_cast
  ring

theorem chunk_raw {c : Cfg} {len : Nat} {t : Tens α} (h : Chunk c len t) (hd s d : Nat) :
    headRaw t hd (s * c.dim + d) = t.elem [0, hd, s, d] := by
  obtain ⟨a, b, hs⟩ := h.stride
  simp only [headRaw, Tens.elem, Tens.addr, hs, dot]
  congr 1
  push_cast
  ring

/-- What the layer's buffer must contain. -/
def Holds (c : Cfg) (m : Mem α) (toks : List (Tok α)) : Prop :=
  toks.length ≤ c.maxLen ∧ ∀ q s d tok, q < c.qHeads → toks[s]? = some tok → d < c.dim →
    m (pos c q s d) = tok (q / c.rep) d

theorem isCount_eq {n : Nat} {s : Sel} {a b : Nat} (h1 : IsCount n s a) (h2 : ∀ m : Nat, m < b ↔
    s.start n + m * s.step < s.stop n) : a = b := by
  have h : ∀ m, m < a ↔ m < b := fun m => (h1 m).trans (h2 m).symm
  rcases Nat.lt_trichotomy a b with hh | hh | hh
  · have := (h a).mpr hh; omega
  · exact hh
  · have := (h b).mp hh; omega

theorem prefixView_shows {c : Cfg} (hc : c.Ok) {m : Mem α} {toks : List (Tok α)} (h : Holds c m toks) :
    ∃ K, prefixView c m toks.length = some K ∧ Shows c toks K := by
  have hsh : (bufT c m).shape = [1, c.qHeads, c.maxLen, c.dim] := by simp [bufT, Cfg.shape, hc.eager]
  have hst : (bufT c m).stride = rowStrides [1, c.qHeads, c.maxLen, c.dim] := by
    simp [bufT, Cfg.shape, hc.eager]
  have hle := h.1
  obtain ⟨K, k1, -, k3, k4⟩ := slice_elements_partial (bufT c m)
    [.all, .all, .range none (some (toks.length : Int)) 1, .all] (by rw [hsh, hst]; rfl)
    (by
      rw [hsh]
      refine ⟨trivial, trivial, ⟨le_refl _, by simp, ?_⟩, trivial, trivial⟩
      intro v hv; cases hv; omega)
    (by
      rw [hsh]; intro n hn
      simp only [List.mem_cons, List.not_mem_nil, or_false] at hn
      have := hc.small
      rcases hn with rfl | rfl | rfl | rfl
      · decide
      all_goals omega)
    (by
      intro s hs
      simp only [List.mem_cons, List.not_mem_nil, or_false] at hs
      rcases hs with rfl | rfl | rfl | rfl <;> simp [Sel.minusOneZero])
  rw [hsh] at k3 k4
  have hshape : K.shape = [1, c.qHeads, toks.length, c.dim] := by
    rcases hK : K.shape with _ | ⟨x1, _ | ⟨x2, _ | ⟨x3, _ | ⟨x4, _ | ⟨x5, xs⟩⟩⟩⟩⟩ <;> rw [hK] at k3
    · exact absurd k3 id
    · exact absurd k3.2 id
    · exact absurd k3.2.2 id
    · exact absurd k3.2.2.2 id
    · obtain ⟨g1, g2, g3, g4, -⟩ := k3
      rw [isCount_eq (b := 1) g1 (by intro m; simp [Sel.start, Sel.stop, Sel.step]),
        isCount_eq (b := c.qHeads) g2 (by intro m; simp [Sel.start, Sel.stop, Sel.step]),
        isCount_eq (b := toks.length) g3 (by
          intro m
          have : ¬ ((toks.length : Int) < 0) := by omega
          simp [Sel.start, Sel.stop, Sel.step, resolve, this]),
        isCount_eq (b := c.dim) g4 (by intro m; simp [Sel.start, Sel.stop, Sel.step])]
    · exact absurd k3.2.2.2.2 id
  refine ⟨K, ?_, hshape, ?_⟩
  · rw [← k1]; unfold prefixView; rw [hc.eager]; rfl
  · intro q s d tok hq hs hd
    have hs' : s < toks.length := by
      by_contra hh
      rw [List.getElem?_eq_none (by omega)] at hs
      cases hs
    rw [(k4 [0, q, s, d] (by rw [hshape]; exact ⟨by decide, hq, hs', hd, trivial⟩)).2]
    have : selPos [1, c.qHeads, c.maxLen, c.dim] [.all, .all, .range none (some (toks.length : Int)) 1, .all]
        [0, q, s, d] = [0, q, s, d] := by simp [selPos, Sel.start, Sel.step]
    rw [this, bufT_elem c hc.eager]
    exact h.2 q s d tok hq hs hd

theorem holds_append {c : Cfg} (hc : c.Ok) {m : Mem α} {toks : List (Tok α)} {len : Nat} {t : Tens α}
    (h : Holds c m toks) (ht : Chunk c len t) (hcap : toks.length + len ≤ c.maxLen) :
    ∃ m', copyHeads c m toks.length len t = .ok m' ∧ Holds c m' (toks ++ tokens t) := by
  obtain ⟨m', e, f⟩ := copyHeads_ok c hc.heads m toks.length len t hcap
  have hlen : (tokens t).length = len := by simp [tokens, ht.shape]
  refine ⟨m', e, by simp [hlen, hcap], ?_⟩
  intro q s d tok hq hs hd
  have hs' : s < toks.length + len := by
    by_contra hh
    rw [List.getElem?_eq_none (by simp [hlen]; omega)] at hs
    cases hs
  rw [f q s d hq (by omega) hd]
  by_cases hh : toks.length ≤ s
  · rw [if_pos ⟨hh, hs'⟩, chunk_raw ht]
    rw [List.getElem?_append_right hh] at hs
    simp only [tokens, List.getElem?_map, ht.shape] at hs
    rw [List.getElem?_range (by simpa using (by omega : s - toks.length < len))] at hs
    simp only [Option.map_some, Option.some.injEq] at hs
    rw [← hs]
  · rw [if_neg (by omega)]
    rw [List.getElem?_append_left (by omega)] at hs
    exact h.2 q s d tok hq hs hd

theorem holds_take {c : Cfg} {m : Mem α} {toks : List (Tok α)} (h : Holds c m toks) (n : Nat) :
    Holds c m (toks.take n) := by
  refine ⟨by have := h.1; simp; omega, ?_⟩
  intro q s d tok hq hs hd
  refine h.2 q s d tok hq ?_ hd
  rw [List.getElem?_take] at hs
  split_ifs at hs
  exact hs

/-- Invariant tying the buffers to the history. -/
def Inv (c : Cfg) (L : Nat) (s : State α) (h : Hist α) : Prop :=
  ∀ l, l < L → s.cnt l = (h l).1.length ∧ (h l).2.length = (h l).1.length ∧
    Holds c (s.k l) (h l).1 ∧ Holds c (s.v l) (h l).2

theorem inv_init (c : Cfg) (L : Nat) (z : α) : Inv c L (init z) (fun _ => ([], [])) := by
  intro l _
  refine ⟨rfl, rfl, ⟨by simp, by simp⟩, ⟨by simp, by simp⟩⟩

theorem inv_getKV {c : Cfg} (hc : c.Ok) {L : Nat} {s : State α} {h : Hist α} (hi : Inv c L s h) {l : Nat}
    (hl : l < L) : ∃ K V, getKV c s l = some (K, V) ∧ Shows c (h l).1 K ∧ Shows c (h l).2 V := by
  obtain ⟨h1, h2, h3, h4⟩ := hi l hl
  obtain ⟨K, k1, k2⟩ := prefixView_shows hc h3
  obtain ⟨V, v1, v2⟩ := prefixView_shows hc h4
  refine ⟨K, V, ?_, k2, v2⟩
  unfold getKV
  rw [h1, k1]
  rw [h2] at v1
  rw [v1]
  rfl

theorem inv_update {c : Cfg} (hc : c.Ok) {L : Nat} {s : State α} {h : Hist α} (hi : Inv c L s h) {l : Nat}
    {k v : Tens α} (ha : Allowed c L h (.update l k v)) :
    ∃ s', update c s l k v = .ok (s', getKV c s' l) ∧ Inv c L s' (specStep h (.update l k v)) := by
  obtain ⟨hl, len, hk, hv, hcap⟩ := ha
  obtain ⟨h1, h2, h3, h4⟩ := hi l hl
  obtain ⟨mk, ek, fk⟩ := holds_append hc h3 hk hcap
  obtain ⟨mv, ev, fv⟩ := holds_append hc h4 hv (by omega)
  refine ⟨⟨upd s.k l mk, upd s.v l mv, upd s.cnt l (s.cnt l + len)⟩, ?_, ?_⟩
  · unfold update
    rw [hc.eager]
    simp only [Bool.false_eq_true, if_false, hk.shape, hv.shape, h1, List.getD_cons_succ,
      List.getD_cons_zero, ne_eq, not_true_eq_false, or_self]
    rw [h2] at ev
    rw [ek, bind_ok, ev, bind_ok]
  · intro i hil
    by_cases hil' : i = l
    · subst hil'
      simp only [specStep, upd, if_true, List.length_append]
      have e1 : (tokens k).length = len := by simp [tokens, hk.shape]
      have e2 : (tokens v).length = len := by simp [tokens, hv.shape]
      exact ⟨by rw [h1, e1], by omega, fk, fv⟩
    · simp only [specStep, upd, if_neg hil']
      exact hi i hil

theorem inv_step {c : Cfg} (hc : c.Ok) {L : Nat} {s : State α} {h : Hist α} (hi : Inv c L s h) {o : Op α}
    (ha : Allowed c L h o) : ∃ s', step c s o = .ok s' ∧ Inv c L s' (specStep h o) := by
  cases o with
  | update l k v =>
    obtain ⟨s', e, i⟩ := inv_update hc hi ha
    exact ⟨s', by simp only [step, e]; rfl, i⟩
  | clear =>
    refine ⟨_, rfl, fun l hl => ⟨rfl, rfl, ⟨by simp [specStep], by simp [specStep]⟩,
      ⟨by simp [specStep], by simp [specStep]⟩⟩⟩
  | setCnt n =>
    refine ⟨_, rfl, fun l hl => ?_⟩
    obtain ⟨h1, h2, h3, h4⟩ := hi l hl
    have hn : n ≤ (h l).1.length := ha l hl
    refine ⟨?_, ?_, holds_take h3 n, holds_take h4 n⟩
    · simp only [setCnt, specStep, List.length_take]; omega
    · simp only [specStep, List.length_take]; omega

theorem inv_run {c : Cfg} (hc : c.Ok) {L : Nat} : ∀ (os : List (Op α)) {s : State α} {h : Hist α},
    Inv c L s h → Legal c L h os → ∃ s', run c s os = .ok s' ∧ Inv c L s' (specRun h os)
  | [], s, h, hi, _ => ⟨s, rfl, hi⟩
  | o :: os, s, h, hi, hl => by
    obtain ⟨s1, e1, i1⟩ := inv_step hc hi hl.1
    obtain ⟨s2, e2, i2⟩ := inv_run hc os i1 hl.2
    refine ⟨s2, ?_, i2⟩
    unfold run at e2 ⊢
    rw [List.foldlM_cons, e1, bind_ok, e2]

/-! ### C21 -/

/-- C21 (eager mode). After any legal history of appends (to any layers, in any chunking), clears and
rollbacks, the cache shows for every layer exactly the tokens appended and not cleared or rolled back,
in order, each query head seeing its key/value head; and the count is their number. -/
theorem static_history_partial (c : Cfg) (hc : c.Ok) (L : Nat) (z : α) (os : List (Op α))
    (hl : Legal c L (fun _ => ([], [])) os) :
    ∃ s, run c (init z) os = .ok s ∧ ∀ l, l < L →
      s.cnt l = (specRun (fun _ => ([], [])) os l).1.length ∧
      ∃ K V, getKV c s l = some (K, V) ∧ Shows c (specRun (fun _ => ([], [])) os l).1 K ∧
        Shows c (specRun (fun _ => ([], [])) os l).2 V := by
  obtain ⟨s, e, i⟩ := inv_run hc os (inv_init c L z) hl
  exact ⟨s, e, fun l hl => ⟨(i l hl).1, inv_getKV hc i hl⟩⟩

/-- C21. The tensors returned by an append are that layer's history including the new tokens. -/
theorem static_update_returns_partial (c : Cfg) (hc : c.Ok) (L : Nat) (z : α) (os : List (Op α)) (l : Nat)
    (k v : Tens α) (hl : Legal c L (fun _ => ([], [])) (os ++ [.update l k v])) :
    ∃ s s' K V, run c (init z) os = .ok s ∧ update c s l k v = .ok (s', some (K, V)) ∧
      Shows c ((specRun (fun _ => ([], [])) os l).1 ++ tokens k) K ∧
      Shows c ((specRun (fun _ => ([], [])) os l).2 ++ tokens v) V := by
  have key : ∀ (os : List (Op α)) (h : Hist α), Legal c L h (os ++ [.update l k v]) →
      Legal c L h os ∧ Allowed c L (specRun h os) (.update l k v) := by
    intro os
    induction os with
    | nil => intro h hh; exact ⟨trivial, hh.1⟩
    | cons o os ih =>
      intro h hh
      obtain ⟨a, b⟩ := ih _ hh.2
      exact ⟨⟨hh.1, a⟩, b⟩
  obtain ⟨g1, g2⟩ := key _ _ hl
  obtain ⟨s, e, i⟩ := inv_run hc os (inv_init c L z) g1
  obtain ⟨s', e', i'⟩ := inv_update hc i g2
  obtain ⟨K, V, f1, f2, f3⟩ := inv_getKV hc i' g2.1
  rw [f1] at e'
  simp only [specStep, upd, if_true] at f2 f3
  exact ⟨s, s', K, V, e, e', f2, f3⟩

/-- Appending in two chunks or in one is the same for the caller. -/
theorem tokens_chunked (t1 t2 t : Tens α) (n1 n2 : Nat)
    (h1 : t1.shape.getD 2 0 = n1) (h2 : t2.shape.getD 2 0 = n2) (h : t.shape.getD 2 0 = n1 + n2)
    (e1 : ∀ i s d, s < n1 → t.elem [0, i, s, d] = t1.elem [0, i, s, d])
    (e2 : ∀ i s d, s < n2 → t.elem [0, i, n1 + s, d] = t2.elem [0, i, s, d]) :
    tokens t1 ++ tokens t2 = tokens t := by
  unfold tokens
  rw [h1, h2, h, List.range_add, List.map_append, List.map_map]
  congr 1
  · apply List.map_congr_left
    intro s hs
    funext i d
    exact (e1 i s d (List.mem_range.mp hs)).symm
  · apply List.map_congr_left
    intro s hs
    funext i d
    exact (e2 i s d (List.mem_range.mp hs)).symm

/-- C21 is violated in fa2 mode, the constructor's default: an append records nothing. -/
theorem static_fa2_violated : ∃ (c : Cfg) (k v : Tens Nat) (s' : State Nat) (r : Option (Tens Nat × Tens Nat)),
    c.fa2 = true ∧ k.shape = [1, 1, c.kvHeads, c.dim] ∧ 1 ≤ c.maxLen ∧
    update c (init 0) 0 k v = .ok (s', r) ∧ s'.cnt 0 = 0 :=
  ⟨⟨4, 2, 2, 1, true⟩, fresh [1, 1, 2, 1] (fun i => some i), fresh [1, 1, 2, 1] (fun i => some i), _, _,
    rfl, rfl, by decide, rfl, rfl⟩

/-- C21 is violated when the query heads are not a multiple of the key/value heads: the remaining
query heads never receive any token. -/
theorem static_heads_violated : ∃ (c : Cfg) (k : Tens Nat) (s' : State Nat) (K V : Tens Nat),
    c.fa2 = false ∧ Chunk c 1 k ∧ c.maxLen = 2 ∧
    update c (init 0) 0 k k = .ok (s', some (K, V)) ∧ K.elem [0, 2, 0, 0] = some 0 ∧
    ∀ h, h < c.kvHeads → k.elem [0, h, 0, 0] ≠ some 0 := by
  refine ⟨⟨2, 3, 2, 1, false⟩, fresh [1, 2, 1, 1] (fun i => some (i + 7)), _, _, _, rfl,
    ⟨rfl, ⟨_, _, rfl⟩⟩, rfl, rfl, rfl, ?_⟩
  intro h hh
  match h, hh with
  | 0, _ => decide
  | 1, _ => decide

/-- The hypotheses of the C21 theorems are met: two appends of different length, a rollback, another
layer, with 2 query heads per key/value head. -/
example : let c : Cfg := ⟨4, 4, 2, 2, false⟩
    c.Ok ∧ Legal c 2 (fun _ => ([], []))
      [.update 0 (fresh [1, 2, 3, 2] fun i => some i) (fresh [1, 2, 3, 2] fun i => some (i + 50)),
       .update 1 (fresh [1, 2, 1, 2] fun i => some i) (fresh [1, 2, 1, 2] fun i => some (i + 50)),
       .setCnt 1,
       .update 0 (fresh [1, 2, 3, 2] fun i => some (i + 100)) (fresh [1, 2, 3, 2] fun i => some i)] := by
  refine ⟨⟨rfl, rfl, by decide⟩, ⟨by decide, 3, ⟨rfl, _, _, rfl⟩, ⟨rfl, _, _, rfl⟩, by decide⟩,
    ⟨by decide, 1, ⟨rfl, _, _, rfl⟩, ⟨rfl, _, _, rfl⟩, by decide⟩, ?_,
    ⟨by decide, 3, ⟨rfl, _, _, rfl⟩, ⟨rfl, _, _, rfl⟩, by decide⟩, trivial⟩
  intro l hl
  match l, hl with
  | 0, _ => decide
  | 1, _ => decide

/-! ### C22 -/

/-- C22. Within capacity an append writes only the positions of its own tokens: no other layer, no
other token of any head, and nothing outside the buffers. -/
theorem static_update_frame (c : Cfg) (hc : c.Ok) (s : State α) (l len : Nat) (k v : Tens α)
    (hk : Chunk c len k) (hv : Chunk c len v) (hcap : s.cnt l + len ≤ c.maxLen) :
    ∃ s' r, update c s l k v = .ok (s', r) ∧ s'.cnt l = s.cnt l + len ∧
      (∀ i, i ≠ l → s'.k i = s.k i ∧ s'.v i = s.v i ∧ s'.cnt i = s.cnt i) ∧
      ∀ q t d, q < c.qHeads → t < c.maxLen → d < c.dim → ¬ (s.cnt l ≤ t ∧ t < s.cnt l + len) →
        (bufT c (s'.k l)).elem [0, q, t, d] = (bufT c (s.k l)).elem [0, q, t, d] ∧
        (bufT c (s'.v l)).elem [0, q, t, d] = (bufT c (s.v l)).elem [0, q, t, d] := by
  obtain ⟨mk, ek, fk⟩ := copyHeads_ok c hc.heads (s.k l) (s.cnt l) len k hcap
  obtain ⟨mv, ev, fv⟩ := copyHeads_ok c hc.heads (s.v l) (s.cnt l) len v hcap
  have hr : ∃ r, update c s l k v =
      .ok (⟨upd s.k l mk, upd s.v l mv, upd s.cnt l (s.cnt l + len)⟩, r) := by
    unfold update
    rw [hc.eager]
    simp only [Bool.false_eq_true, if_false, hk.shape, hv.shape, List.getD_cons_succ,
      List.getD_cons_zero, ne_eq, not_true_eq_false, or_self]
    rw [ek, bind_ok, ev, bind_ok]
    exact ⟨_, rfl⟩
  obtain ⟨r, hr⟩ := hr
  refine ⟨_, r, hr, by simp [upd], ?_, ?_⟩
  · intro i hi; simp [upd, hi]
  · intro q t d hq ht hd hn
    simp only [bufT_elem c hc.eager, upd, if_true]
    rw [fk q t d hq ht hd, fv q t d hq ht hd, if_neg hn, if_neg hn]
    exact ⟨rfl, rfl⟩

/-- C22 is violated: an append past capacity is never refused; whatever the configuration and the
state, it writes outside the buffer. -/
theorem static_overflow_violated (c : Cfg) (hc : c.Ok) (hq : 0 < c.qHeads) (hd : 0 < c.dim) (s : State α)
    (l len : Nat) (k v : Tens α) (hk : Chunk c len k) (hv : Chunk c len v) (hl : 0 < len)
    (hcap : c.maxLen < s.cnt l + len) : update c s l k v = .error .ub := by
  unfold update
  rw [hc.eager]
  simp only [Bool.false_eq_true, if_false, hk.shape, hv.shape, List.getD_cons_succ,
    List.getD_cons_zero, ne_eq, not_true_eq_false, or_self]
  rw [copyHeads_ub c hc.heads hq hd _ _ _ _ hl hcap]
  rfl

/-- Such a state is reachable by legal calls. -/
example : ∃ s, run (α := Nat) ⟨1, 2, 1, 1, false⟩ (init 0)
      [.update 0 (fresh [1, 1, 1, 1] some) (fresh [1, 1, 1, 1] some)] = .ok s ∧
    update ⟨1, 2, 1, 1, false⟩ s 0 (fresh [1, 1, 1, 1] some) (fresh [1, 1, 1, 1] some) = .error .ub := by
  refine ⟨_, rfl, ?_⟩
  exact static_overflow_violated _ ⟨rfl, rfl, by decide⟩ (by decide) (by decide) _ 0 1 _ _
    ⟨rfl, _, _, rfl⟩ ⟨rfl, _, _, rfl⟩ (by decide) (by decide)

/-- C22 for sub-caches: an append that does not fit is refused and changes nothing. -/
theorem sub_update_refuses (c : Cfg) (s : State α) (b : Sub) (l : Nat) (k v : Tens α)
    (h : c.maxLen < b.start + (b.cnt l + k.shape.getD 2 0)) : subUpdate c s b l k v = .error .abort := by
  simp only [subUpdate, if_pos h]

theorem shape4 {n1 n2 n3 n4 : Nat} {s1 s2 s3 s4 : Sel} {sh : List Nat}
    (h : IsCounts [n1, n2, n3, n4] [s1, s2, s3, s4] sh) :
    ∃ x1 x2 x3 x4, sh = [x1, x2, x3, x4] ∧ IsCount n1 s1 x1 ∧ IsCount n2 s2 x2 ∧ IsCount n3 s3 x3 ∧
      IsCount n4 s4 x4 := by
  rcases sh with _ | ⟨x1, _ | ⟨x2, _ | ⟨x3, _ | ⟨x4, _ | ⟨x5, xs⟩⟩⟩⟩⟩
  · exact absurd h id
  · exact absurd h.2 id
  · exact absurd h.2.2 id
  · exact absurd h.2.2.2 id
  · exact ⟨x1, x2, x3, x4, rfl, h.1, h.2.1, h.2.2.1, h.2.2.2.1⟩
  · exact absurd h.2.2.2.2 id

theorem isCount_all {n c : Nat} (h : IsCount n .all c) : c = n :=
  isCount_eq h (by intro m; simp [Sel.start, Sel.stop, Sel.step])

theorem window_elems {c : Cfg} (hc : c.Ok) (m : Mem α) (start cnt : Nat)
    (hcap : start + cnt ≤ c.maxLen) :
    ∃ K, (do
      let w ← slice (bufT c m) [{}, {}, ⟨start, kAll, 1⟩, {}]
      slice w [{}, {}, ⟨kAll, cnt, 1⟩, {}]) = some K ∧
      K.shape = [1, c.qHeads, cnt, c.dim] ∧
      ∀ q t d, q < c.qHeads → t < cnt → d < c.dim →
        K.elem [0, q, t, d] = (bufT c m).elem [0, q, start + t, d] := by
  have hsh : (bufT c m).shape = [1, c.qHeads, c.maxLen, c.dim] := by simp [bufT, Cfg.shape, hc.eager]
  have hst : (bufT c m).stride = rowStrides [1, c.qHeads, c.maxLen, c.dim] := by
    simp [bufT, Cfg.shape, hc.eager]
  have hsm := hc.small
  have nm1 : ∀ s ∈ [Sel.all, .all, .range (some (start : Int)) none 1, .all], ¬ s.minusOneZero := by
    intro s hs
    simp only [List.mem_cons, List.not_mem_nil, or_false] at hs
    rcases hs with rfl | rfl | rfl | rfl <;> simp [Sel.minusOneZero]
  have nm2 : ∀ s ∈ [Sel.all, .all, .range none (some (cnt : Int)) 1, .all], ¬ s.minusOneZero := by
    intro s hs
    simp only [List.mem_cons, List.not_mem_nil, or_false] at hs
    rcases hs with rfl | rfl | rfl | rfl <;> simp [Sel.minusOneZero]
  have small4 : ∀ x : Nat, (x : Int) < kAll → ∀ n ∈ [1, c.qHeads, x, c.dim], (n : Int) < kAll := by
    intro x hx n hn
    simp only [List.mem_cons, List.not_mem_nil, or_false] at hn
    rcases hn with rfl | rfl | rfl | rfl
    · decide
    all_goals omega
  have ir1 : AllInRange (bufT c m).shape [.all, .all, .range (some (start : Int)) none 1, .all] := by
    rw [hsh]
    refine ⟨trivial, trivial, ⟨le_refl _, ?_, by simp⟩, trivial, trivial⟩
    intro v hv; cases hv; omega
  obtain ⟨w, w1, -, w3, w4⟩ := slice_elements_partial (bufT c m)
    [.all, .all, .range (some (start : Int)) none 1, .all] (by rw [hsh, hst]; rfl) ir1
    (by rw [hsh]; exact small4 _ hsm.2.1) nm1
  have hwsh : w.shape = [1, c.qHeads, c.maxLen - start, c.dim] := by
    rw [hsh] at w3
    obtain ⟨x1, x2, x3, x4, e, g1, g2, g3, g4⟩ := shape4 w3
    rw [e, isCount_all g1, isCount_all g2, isCount_all g4]
    rw [isCount_eq (b := c.maxLen - start) g3]
    intro j
    have : ¬ ((start : Int) < 0) := by omega
    simp only [Sel.start, Sel.stop, Sel.step, resolve, this, if_false]
    omega
  have ir2 : AllInRange w.shape [.all, .all, .range none (some (cnt : Int)) 1, .all] := by
    rw [hwsh]
    refine ⟨trivial, trivial, ⟨le_refl _, by simp, ?_⟩, trivial, trivial⟩
    intro v hv; cases hv; omega
  have hws : w.stride.length = w.shape.length := by
    have hw := w1
    unfold slice at hw
    simp only [hsh, hst, rowStrides, List.map_cons, List.map_nil, sliceDims, sliceDim] at hw
    rw [hwsh]
    split_ifs at hw <;> simp at hw
    rw [← hw]; rfl
  obtain ⟨K, k1, -, k3, k4⟩ := slice_elements_partial w
    [.all, .all, .range none (some (cnt : Int)) 1, .all] hws ir2
    (by rw [hwsh]; exact small4 _ (by omega)) nm2
  have hKsh : K.shape = [1, c.qHeads, cnt, c.dim] := by
    rw [hwsh] at k3
    obtain ⟨x1, x2, x3, x4, e, g1, g2, g3, g4⟩ := shape4 k3
    rw [e, isCount_all g1, isCount_all g2, isCount_all g4]
    rw [isCount_eq (b := cnt) g3]
    intro j
    have : ¬ ((cnt : Int) < 0) := by omega
    simp only [Sel.start, Sel.stop, Sel.step, resolve, this, if_false]
    omega
  refine ⟨K, ?_, hKsh, ?_⟩
  · have e1 : slice (bufT c m) [{}, {}, ⟨start, kAll, 1⟩, {}] = some w := w1
    have e2 : slice w [{}, {}, ⟨kAll, cnt, 1⟩, {}] = some K := k1
    rw [e1]
    exact e2
  · intro q t d hq ht hd
    rw [(k4 [0, q, t, d] (by rw [hKsh]; exact ⟨by decide, hq, ht, hd, trivial⟩)).2]
    have p1 : selPos w.shape [.all, .all, .range none (some (cnt : Int)) 1, .all]
        [0, q, t, d] = [0, q, t, d] := by rw [hwsh]; simp [selPos, Sel.start, Sel.step]
    rw [p1, (w4 [0, q, t, d] (by rw [hwsh]; exact ⟨by decide, hq, by omega, hd, trivial⟩)).2]
    have p2 : selPos (bufT c m).shape [.all, .all, .range (some (start : Int)) none 1, .all]
        [0, q, t, d] = [0, q, start + t, d] := by
      have : ¬ ((start : Int) < 0) := by omega
      rw [hsh]; simp [selPos, Sel.start, Sel.step, resolve, this]
    rw [p2]

/-- C22 for sub-caches: an append that fits never leaves the buffers, records the tokens behind the
window's current end, and leaves every other token, all other layers and the parent's counts alone;
the returned tensors are the window's tokens. -/
theorem sub_update_frame (c : Cfg) (hc : c.Ok) (s : State α) (b : Sub) (l len : Nat) (k v : Tens α)
    (hk : Chunk c len k) (hv : Chunk c len v) (hcap : b.start + (b.cnt l + len) ≤ c.maxLen) :
    ∃ s' b' K V, subUpdate c s b l k v = .ok (s', b', some (K, V)) ∧ b'.cnt l = b.cnt l + len ∧ s'.cnt = s.cnt ∧
      (∀ i, i ≠ l → s'.k i = s.k i ∧ s'.v i = s.v i ∧ b'.cnt i = b.cnt i) ∧
      (∀ q t d, q < c.qHeads → t < c.maxLen → d < c.dim →
        ¬ (b.start + b.cnt l ≤ t ∧ t < b.start + b.cnt l + len) →
        (bufT c (s'.k l)).elem [0, q, t, d] = (bufT c (s.k l)).elem [0, q, t, d] ∧
        (bufT c (s'.v l)).elem [0, q, t, d] = (bufT c (s.v l)).elem [0, q, t, d]) ∧
      (∀ q t d, q < c.qHeads → t < len → d < c.dim →
        (bufT c (s'.k l)).elem [0, q, b.start + b.cnt l + t, d] = k.elem [0, q / c.rep, t, d] ∧
        (bufT c (s'.v l)).elem [0, q, b.start + b.cnt l + t, d] = v.elem [0, q / c.rep, t, d]) ∧
      K.shape = [1, c.qHeads, b.cnt l + len, c.dim] ∧ V.shape = [1, c.qHeads, b.cnt l + len, c.dim] ∧
      (∀ q t d, q < c.qHeads → t < b.cnt l + len → d < c.dim →
        K.elem [0, q, t, d] = (bufT c (s'.k l)).elem [0, q, b.start + t, d] ∧
        V.elem [0, q, t, d] = (bufT c (s'.v l)).elem [0, q, b.start + t, d]) := by
  obtain ⟨mk, ek, fk⟩ := copyHeads_ok c hc.heads (s.k l) (b.start + b.cnt l) len k (by omega)
  obtain ⟨mv, ev, fv⟩ := copyHeads_ok c hc.heads (s.v l) (b.start + b.cnt l) len v (by omega)
  obtain ⟨K, k1, k2, k3⟩ := window_elems hc mk b.start (b.cnt l + len) hcap
  obtain ⟨V, v1, v2, v3⟩ := window_elems hc mv b.start (b.cnt l + len) hcap
  have hr : subUpdate c s b l k v =
      .ok (⟨upd s.k l mk, upd s.v l mv, s.cnt⟩, { b with cnt := upd b.cnt l (b.cnt l + len) },
        some (K, V)) := by
    unfold subUpdate
    simp only [hk.shape, hv.shape, List.getD_cons_succ,
      List.getD_cons_zero, ne_eq, not_true_eq_false, or_self, if_false]
    rw [if_neg (by omega), ek, bind_ok, ev, bind_ok]
    simp only [upd, if_true]
    rw [k1, v1]; rfl
  refine ⟨_, _, K, V, hr, by simp [upd], rfl, ?_, ?_, ?_, k2, v2, ?_⟩
  · intro i hi; simp [upd, hi]
  · intro q t d hq ht hd hn
    simp only [bufT_elem c hc.eager, upd, if_true]
    rw [fk q t d hq ht hd, fv q t d hq ht hd, if_neg hn, if_neg hn]
    exact ⟨rfl, rfl⟩
  · intro q t d hq ht hd
    simp only [bufT_elem c hc.eager, upd, if_true]
    rw [fk q _ d hq (by omega) hd, fv q _ d hq (by omega) hd, if_pos (by omega), if_pos (by omega),
      Nat.add_sub_cancel_left, chunk_raw hk, chunk_raw hv]
    exact ⟨rfl, rfl⟩
  · intro q t d hq ht hd
    exact ⟨by rw [k3 q t d hq ht hd]; simp [upd], by rw [v3 q t d hq ht hd]; simp [upd]⟩

end Verif.KVCache
