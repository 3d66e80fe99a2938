import Verif.Lazy.Decode

/-!
# What a user of the pruned vision-language model relies on (C177)

Pruning the visual tokens drops tokens from the attention, but what is attended to must be the right thing: whenever an
attention reads a position, the key and value of exactly that token have to be there, whether they were computed in the
first call or are computed later.
-/

namespace Verif.Lazy

/-- What top-k may return at a layer: distinct indices of the visual tokens present, as many as the rate says. -/
def TopK (c : Cfg) (cur : List Nat) (rate : ℚ) (pick : List Nat) : Prop :=
  pick.Nodup ∧ (∀ i ∈ pick, i < (cur.filter fun p => decide (Vis c p)).length) ∧
    pick.length = keepCount (cur.filter fun p => decide (Vis c p)).length rate

/-- **C177** The first call: for an image between text tokens, any pruning layers and rates and any choices of top-k, the
call completes, and every attention finds at every position it reads the key and value of that token. -/
theorem C177_prefill {c : Cfg} {S : Nat} {pick : Nat → List Nat} (hp : Placed c S)
    (hk : ∀ l s rate, l < c.layers → before (fun l => prefillLayer c (pick l) l) ⟨fresh c, List.range S, [], (List.range S).map some, []⟩ l = some s →
      c.prune l = some rate → TopK c s.cur rate (pick l)) :
    ∃ st log, prefill c pick S = some (st, log) ∧ (∀ e ∈ log, e.2.2 = some e.2.1) ∧ st.len = S ∧
      ∀ l, l < c.layers → ∀ p, st.slot l p = if p < S ∧ p ∉ st.missing l then some p else none := by
  have hall : ∀ l, l ≤ c.layers → ∃ r, before (fun l => prefillLayer c (pick l) l) ⟨fresh c, List.range S, [], (List.range S).map some, []⟩ l = some r := by
    intro l
    induction l with
    | zero => intro _; exact ⟨_, rfl⟩
    | succ l ih =>
      intro hl
      obtain ⟨s, hs⟩ := ih (by omega)
      rw [before, hs, Option.bind_some]
      have hI := before_prefill hp l s hs
      unfold prefillLayer
      rw [if_neg (by rw [hI.rows, List.length_map]; simp)]
      cases hpr : c.prune l with
      | none => exact ⟨_, rfl⟩
      | some rate =>
        obtain ⟨k1, k2, k3⟩ := hk l s rate (by omega) hs hpr
        have h1 := hp.before
        have h2 := hp.image
        have h3 := hp.after
        obtain ⟨next, hn⟩ := select_ok hI.sorted h1 h2 (hI.text _ (by omega) (by unfold Vis; omega)) (hI.text _ h3 (by unfold Vis; omega)) k1 k2 k3
        have hS := select_spec hI.sorted h1 h2 hn
        have hm := (mapping_rows hI.sorted hS.sorted hS.sub).1
        dsimp only
        rw [hn, Option.bind_eq_bind, Option.bind_some, if_neg (by simpa using hm)]
        exact ⟨_, rfl⟩
  obtain ⟨r, hr⟩ := hall c.layers le_rfl
  have he : prefill c pick S = some ({ r.st with len := S }, r.log) := by
    unfold prefill
    simp only [hr]
    rfl
  obtain ⟨_, g, h1, h2⟩ := prefill_inv hp he
  exact ⟨_, _, he, g, h1, h2⟩

/-- **C177** What a pruning layer of the first call keeps: in order, a part of what it was given, every text token, and of
the visual tokens the share the rate says, rounded up. -/
theorem C177_kept {c : Cfg} {S l : Nat} {pick : Nat → List Nat} {s t : Pass} {rate : ℚ} (hp : Placed c S) (hr : c.prune l = some rate)
    (hs : before (fun l => prefillLayer c (pick l) l) ⟨fresh c, List.range S, [], (List.range S).map some, []⟩ l = some s)
    (ht : prefillLayer c (pick l) l s = some t) :
    t.cur.Pairwise (· < ·) ∧ (∀ p ∈ t.cur, p ∈ s.cur) ∧ (∀ p, p < S → ¬ Vis c p → p ∈ t.cur) ∧
      (t.cur.filter fun p => decide (Vis c p)).length = min ⌈((s.cur.filter fun p => decide (Vis c p)).length : ℚ) * (1 - rate)⌉₊
        (s.cur.filter fun p => decide (Vis c p)).length ∧ t.rows = t.cur.map some := by
  obtain ⟨h1, h2⟩ := prefill_layer hp (before_prefill hp l s hs) ht
  have h3 := h2 rate hr
  exact ⟨h3.sorted, h3.sub, h1.text, h3.count, h1.rows⟩

/-- The calls of a conversation: the first with `S` tokens, then one token at a time; the caches after it and all that the
attentions have read. -/
inductive Calls (c : Cfg) (S : Nat) : St → List (Nat × Nat × Option Nat) → Prop
  | first {pick st log} : prefill c pick S = some (st, log) → Calls c S st log
  | next {st log pick st' log'} : Calls c S st log → Aligned c pick st → decode c pick st = some (st', log') → Calls c S st' (log ++ log')

/-- **C177** Any number of later calls, under a condition: if a pruning layer never keeps a token that the next layer has not
computed yet while dropping a token in front of it, then in every call every attention finds at every position it reads the
key and value of that token.  (Without the condition: `C177_delay_violated`.) -/
theorem C177_decode_partial {c : Cfg} {S : Nat} {st : St} {log : List (Nat × Nat × Option Nat)} (hp : Placed c S) (h : Calls c S st log) :
    (∀ e ∈ log, e.2.2 = some e.2.1) ∧ S ≤ st.len ∧
      ∀ l, l < c.layers → ∀ p, p < st.len → p ∉ st.missing l → st.slot l p = some p := by
  suffices Inv c st ∧ Good log ∧ S ≤ st.len from ⟨this.2.1, this.2.2, this.1.slot⟩
  induction h with
  | first h =>
    obtain ⟨a, b, e, _⟩ := prefill_inv hp h
    exact ⟨a, b, e ▸ le_rfl⟩
  | next _ hal hd ih =>
    obtain ⟨a, b, e⟩ := ih
    have := hp.after
    obtain ⟨a', b', e'⟩ := decode_inv hp.before hp.image (by omega) a hal hd
    refine ⟨a', fun x hx => ?_, by omega⟩
    rcases List.mem_append.mp hx with hx | hx
    · exact b x hx
    · exact b' x hx

/-- Without pruning layers the condition holds. -/
theorem aligned_unpruned {c : Cfg} (h : ∀ l, c.prune l = none) (pick : Nat → List Nat) (st : St) : Aligned c pick st := by
  intro l t _ hs
  rw [h l] at hs
  cases hs

/-- The condition holds if the pruning layers keep no token that the next layer has not computed. -/
theorem aligned_kept {c : Cfg} {pick : Nat → List Nat} {st : St}
    (h : ∀ l t, before (fun l => decodeLayer c (pick l) l) (start st) (l + 1) = some t → ∀ p ∈ t.cur, p ∉ st.missing (l + 1)) : Aligned c pick st :=
  fun l t _ _ ht p hp hm => absurd hm (h l t ht p hp)

/-! ## What fails -/

/-- The index of an element with a gap below it is smaller than the element. -/
theorem index_lt {next : List Nat} (hn : next.Pairwise (· < ·)) {i : Nat} (hi : i < next.length) {q : Nat} (hq : q < next[i]) (hg : q ∉ next) : i < next[i] := by
  have hge : ∀ j (hj : j < next.length), j ≤ next[j] := by
    intro j
    induction j with
    | zero => intro _; omega
    | succ j ih =>
      intro hj
      have h1 := ih (by omega)
      have := (sorted_lt hn (by omega : j < next.length) hj).mpr (by omega)
      omega
  by_contra hc
  have he : next[i] = i := by have := hge i hi; omega
  have hup : ∀ d j (hj : j < next.length), j + d = i → next[j] + d ≤ next[i] := by
    intro d
    induction d with
    | zero => intro j hj e; simp only [Nat.add_zero] at e; subst e; omega
    | succ d ih =>
      intro j hj e
      have h1 := ih (j + 1) (by omega) (by omega)
      have := (sorted_lt hn hj (by omega : j + 1 < next.length)).mpr (by omega)
      omega
  rw [he] at hq
  have h1 := hge q (by omega)
  have h2 := hup (i - q) q (by omega) (by omega)
  have : next[q]'(by omega) = q := by omega
  exact hg (this ▸ List.getElem_mem _)

/-- **C177** `mappingThis2NextPos` returns indices, and they are taken for positions.  If a pruning layer keeps one token the
next layer has not computed and dropped one in front of it, then another, earlier position is computed in its place; the next
layer's attention reads the slot of the kept token as it was before the call, and the token counts as computed from then on. -/
theorem C177_delay_violated {c : Cfg} {l p q : Nat} {rate : ℚ} {pick pick' : List Nat} {s t u : Pass} (hr : c.prune l = some rate)
    (ht : decodeLayer c pick l s = some t) (hu : decodeLayer c pick' (l + 1) t = some u) (hs : t.cur.Pairwise (· < ·))
    (hp : p ∈ t.cur) (hone : ∀ x ∈ t.cur, x ∈ s.st.missing (l + 1) ↔ x = p) (hq : q < p) (hg : q ∉ t.cur) (hlast : t.cur.getLastD 0 ≠ p) :
    (∃ i, i < p ∧ t.need = [i]) ∧ (l + 1, p, s.st.slot (l + 1) p) ∈ u.log ∧ p ∉ u.st.missing (l + 1) ∧ u.st.slot (l + 1) p = s.st.slot (l + 1) p := by
  obtain ⟨i, hi, he⟩ := List.mem_iff_getElem.mp hp
  have hmap : ∀ m : List Nat, (∀ x ∈ t.cur, x ∈ m ↔ x = p) → mapping t.cur m = [i] := by
    intro m hm
    have hnd : t.cur.Nodup := hs.imp fun h => by omega
    unfold mapping
    apply sorted_ext (List.pairwise_lt_range.filter _) (by simp)
    intro j
    rw [List.mem_filter, List.mem_range, decide_eq_true_eq, List.mem_singleton]
    constructor
    · rintro ⟨hj, hjm⟩
      rw [List.getD_eq_getElem t.cur 0 hj] at hjm
      have := (hm _ (List.getElem_mem hj)).mp hjm
      rw [← he] at this
      exact (List.Nodup.getElem_inj_iff hnd).mp this
    · rintro rfl
      refine ⟨hi, ?_⟩
      rw [List.getD_eq_getElem t.cur 0 hi, he]
      exact (hm p hp).mpr rfl
  have hip : i < p := by
    have := index_lt hs hi (q := q) (by omega) hg
    omega
  have hst : t.need = [i] ∧ t.st.slot (l + 1) = s.st.slot (l + 1) := by
    unfold decodeLayer at ht
    dsimp only at ht
    split_ifs at ht with h1
    rw [hr] at ht
    simp only at ht
    cases hsel : select c s.cur rate pick with
    | none => rw [hsel] at ht; cases ht
    | some next =>
    rw [hsel] at ht
    simp only [Option.bind_eq_bind, Option.bind_some] at ht
    obtain rfl := Option.some.inj ht
    simp only at hmap ⊢
    rw [Function.update_of_ne (by omega), Function.update_of_ne (by omega), hmap _ hone]
    exact ⟨by simp, rfl⟩
  obtain ⟨h1, h2⟩ := hst
  refine ⟨⟨i, hip, h1⟩, ?_⟩
  have hstore : store (t.st.slot (l + 1)) (t.need ++ [t.cur.getLastD 0]) t.rows p = s.st.slot (l + 1) p := by
    rw [h1, h2]
    generalize hL : t.cur.getLastD 0 = L at hlast
    unfold store
    rcases t.rows with _ | ⟨a, _ | ⟨b, rest⟩⟩
    · rfl
    · simp [Function.update_of_ne (show p ≠ i by omega)]
    · simp [Function.update_of_ne (show p ≠ i by omega), Function.update_of_ne hlast.symm]
  unfold decodeLayer at hu
  dsimp only at hu
  split_ifs at hu with h3
  have hv : p ∉ visit (t.st.missing (l + 1)) t.cur := by
    rw [mem_visit]
    tauto
  have hlog : (l + 1, p, s.st.slot (l + 1) p) ∈ t.log ++ t.cur.map fun p => (l + 1, p, store (t.st.slot (l + 1)) (t.need ++ [t.cur.getLastD 0]) t.rows p) := by
    rw [List.mem_append, List.mem_map]
    exact Or.inr ⟨p, hp, by rw [hstore]⟩
  cases hpr : c.prune (l + 1) with
  | none =>
    rw [hpr] at hu
    obtain rfl := Option.some.inj hu
    exact ⟨hlog, by simp only [Function.update_self]; exact hv, by simp only [Function.update_self]; exact hstore⟩
  | some rate' =>
    rw [hpr] at hu
    simp only at hu
    cases hsel : select c t.cur rate' pick' with
    | none => rw [hsel] at hu; cases hu
    | some next =>
    rw [hsel] at hu
    simp only [Option.bind_eq_bind, Option.bind_some] at hu
    obtain rfl := Option.some.inj hu
    exact ⟨hlog, by simp only [Function.update_self]; exact hv, by simp only [Function.update_self]; exact hstore⟩

/-- A text token, four visual tokens and a text token; the first of two layers prunes a quarter. -/
def tiny : Cfg := ⟨2, fun l => if l = 0 then some (1 / 4) else none, 1, 5⟩

theorem select_eval {c : Cfg} {cur next pick : List Nat} {rate : ℚ} (vs ve : Nat)
    (h1 : cur.findIdx? (fun p : Nat => decide ((p : Int) = (c.first : Int) - 1)) = some vs) (h2 : cur.findIdx? (fun p => decide (p = c.last)) = some ve)
    (h3 : pick.Nodup ∧ (∀ i ∈ pick, i < ve - vs - 1) ∧ pick.length = keepCount (ve - vs - 1) rate) (h4 : next.Pairwise (· < ·))
    (h5 : (cur.take (vs + 1) ++ pick.map (fun i => cur.getD (vs + 1 + i) 0) ++ cur.drop ve).Perm next) : select c cur rate pick = some next := by
  unfold select
  rw [h1, h2]
  simp only [Option.bind_eq_bind, Option.bind_some]
  rw [if_pos h3]
  congr 1
  apply sorted_ext (sort_strict (h5.nodup_iff.mpr (h4.imp fun h => by omega))) h4
  intro p
  rw [(List.mergeSort_perm _ _).mem_iff, h5.mem_iff]

theorem keep_tiny : keepCount 4 (1 / 4) = 3 := by
  unfold keepCount
  norm_num

theorem sel_first : select tiny [0, 1, 2, 3, 4, 5] (1 / 4) [0, 1, 3] = some [0, 1, 2, 4, 5] :=
  select_eval 0 5 rfl rfl ⟨by decide, by decide, keep_tiny.symm⟩ (by decide) (by decide)

theorem sel_next : select tiny [0, 1, 2, 3, 4, 5, 6] (1 / 4) [1, 2, 3] = some [0, 2, 3, 4, 5, 6] :=
  select_eval 0 5 rfl rfl ⟨by decide, by decide, keep_tiny.symm⟩ (by decide) (by decide)



/-- The pass of the first call after the pruning layer. -/
theorem tiny_layer : ∃ t, prefillLayer tiny [0, 1, 3] 0 ⟨fresh tiny, List.range 6, [], (List.range 6).map some, []⟩ = some t ∧
    t.cur = [0, 1, 2, 4, 5] ∧ t.rows = [some 0, some 1, some 2, some 4, some 5] ∧ t.st.missing 0 = [] ∧ t.st.missing 1 = [1, 2, 3, 4] ∧
    t.st.slot 1 3 = none := by
  unfold prefillLayer
  rw [if_neg (by decide)]
  show ∃ t, (select tiny [0, 1, 2, 3, 4, 5] (1 / 4) [0, 1, 3]).bind _ = some t ∧ _
  rw [sel_first, Option.bind_some, if_neg (by decide)]
  exact ⟨_, rfl, rfl, by decide, by decide, by decide, by decide⟩

theorem tiny_first : ∃ st log, prefill tiny (fun _ => [0, 1, 3]) 6 = some (st, log) ∧ st.missing 0 = [] ∧ st.missing 1 = [3] ∧ st.len = 6 ∧ st.slot 1 3 = none := by
  obtain ⟨t, h1, h2, h3, h4, h5, h6⟩ := tiny_layer
  have h7 : before (fun l => prefillLayer tiny [0, 1, 3] l) ⟨fresh tiny, List.range 6, [], (List.range 6).map some, []⟩ 2 =
      prefillLayer tiny [0, 1, 3] 1 t := by
    rw [before, before, before, Option.bind_some, h1, Option.bind_some]
  unfold prefill
  rw [show tiny.layers = 2 from rfl]
  simp only [h7]
  unfold prefillLayer
  rw [if_neg (by rw [h2, h3]; decide), show tiny.prune 1 = none from rfl]
  refine ⟨_, _, rfl, ?_, ?_, rfl, ?_⟩
  · exact h4
  · show visit (t.st.missing 1) t.cur = [3]
    rw [h5, h2]
    decide
  · show store (t.st.slot 1) t.cur t.rows 3 = none
    rw [h2, h3]
    show store (t.st.slot 1) [0, 1, 2, 4, 5] ([0, 1, 2, 4, 5].map some) 3 = none
    rw [store_some, if_neg (by decide)]
    exact h6

/-- **C177** It happens: text, four visual tokens, text; the first of two layers prunes a quarter.  The first call drops the
third visual token, the second call drops the first one and keeps the third: the second layer's attention reads, for
position 3, memory nothing was written to. -/
theorem C177_unwritten_violated : ∃ st log st' log' pick pick', prefill tiny pick 6 = some (st, log) ∧ decode tiny pick' st = some (st', log') ∧
    (1, 3, none) ∈ log' := by
  obtain ⟨st, log, h1, h2, h3, h4, h5⟩ := tiny_first
  have hc : (start st).cur = [0, 1, 2, 3, 4, 5, 6] := by
    unfold start
    rw [h4]
    rfl
  have e1 : ∃ t, decodeLayer tiny [1, 2, 3] 0 (start st) = some t ∧ t.cur = [0, 2, 3, 4, 5, 6] ∧ t.st.slot 1 = st.slot 1 := by
    unfold decodeLayer
    rw [if_neg (by simp [start]), hc]
    dsimp only
    rw [show tiny.prune 0 = some (1 / 4) from rfl]
    dsimp only
    rw [sel_next, Option.bind_eq_bind, Option.bind_some]
    exact ⟨_, rfl, rfl, by simp [start]⟩
  obtain ⟨t, t1, t2, t3⟩ := e1
  have hm : ∀ x ∈ t.cur, x ∈ (start st).st.missing (0 + 1) ↔ x = 3 := by
    intro x _
    show x ∈ st.missing 1 ↔ _
    rw [h3, List.mem_singleton]
  have e2 : ∃ u, decodeLayer tiny [1, 2, 3] (0 + 1) t = some u := by
    have hr : t.need = [2] ∧ t.rows.length = 2 := by
      unfold decodeLayer at t1
      rw [if_neg (by simp [start]), hc] at t1
      dsimp only at t1
      rw [show tiny.prune 0 = some (1 / 4) from rfl] at t1
      dsimp only at t1
      rw [sel_next, Option.bind_eq_bind, Option.bind_some] at t1
      obtain rfl := Option.some.inj t1
      have h6 : mapping [0, 2, 3, 4, 5, 6] ((Function.update (start st).st.missing 0 (visit ((start st).st.missing 0) [0, 1, 2, 3, 4, 5, 6])) (0 + 1)) = [2] := by
        rw [Function.update_of_ne (by decide), show (start st).st.missing (0 + 1) = [3] from h3]
        decide
      simp only [h6]
      simp
    unfold decodeLayer
    rw [if_neg (by rw [hr.1, hr.2]; simp), show tiny.prune (0 + 1) = none from rfl]
    exact ⟨_, rfl⟩
  obtain ⟨u, u1⟩ := e2
  have key := C177_delay_violated (p := 3) (q := 1) (show tiny.prune 0 = some (1 / 4) from rfl) t1 u1 (by rw [t2]; decide) (by rw [t2]; decide) hm (by decide)
    (by rw [t2]; decide) (by rw [t2]; decide)
  refine ⟨st, log, { u.st with len := st.len + 1 }, u.log, fun _ => [0, 1, 3], fun _ => [1, 2, 3], h1, ?_, ?_⟩
  · unfold decode
    rw [show tiny.layers = 2 from rfl]
    simp only [before, Option.bind_some, t1]
    rw [show decodeLayer tiny [1, 2, 3] 1 t = some u from u1]
    rfl
  · have := key.2.1
    rw [show (start st).st.slot (0 + 1) 3 = none from h5] at this
    exact this

/-- **C177** The hidden state cache has a row for every visual token, and is written at absolute positions: whenever a layer
prunes, the first call writes past its end. -/
theorem C177_overflow_violated {c : Cfg} {S l : Nat} {pick : Nat → List Nat} {s : Pass} {rate : ℚ} (hp : Placed c S) (hr : c.prune l = some rate)
    (hs : before (fun l => prefillLayer c (pick l) l) ⟨fresh c, List.range S, [], (List.range S).map some, []⟩ l = some s) :
    ∃ p ∈ hidWrites c s l, hidRows c ≤ p := by
  have hI := before_prefill hp l s hs
  have h1 := hp.after
  refine ⟨S - 1, ?_, by unfold hidRows; have := hp.before; omega⟩
  unfold hidWrites
  rw [hr]
  exact hI.text _ (by omega) (by unfold Vis; omega)

/-- **C177** An image at the very end of the first call's tokens makes the selection fail, whatever top-k returns. -/
theorem C177_trailing_violated {c : Cfg} {S : Nat} {pick : List Nat} {rate : ℚ} {s : Pass} (h : c.last = S) (hs : ∀ p ∈ s.cur, p < S) {l : Nat}
    (hr : c.prune l = some rate) : prefillLayer c pick l s = none := by
  have hsel : select c s.cur rate pick = none := by
    unfold select
    have : s.cur.findIdx? (fun p => decide (p = c.last)) = none := by
      rw [List.findIdx?_eq_none_iff]
      intro p hp
      have := hs p hp
      simp only [decide_eq_false_iff_not]
      omega
    rw [this]
    cases s.cur.findIdx? (fun p : Nat => decide ((p : Int) = (c.first : Int) - 1)) <;> rfl
  unfold prefillLayer
  dsimp only
  split_ifs
  · rfl
  · rw [hr]
    dsimp only
    rw [hsel]
    rfl

/-! ## Non-vacuity -/

example : Placed tiny 6 := ⟨by decide, by decide, by decide⟩

example : TopK tiny [0, 1, 2, 3, 4, 5] (1 / 4) [0, 1, 3] := by
  unfold TopK
  rw [show ([0, 1, 2, 3, 4, 5].filter fun p => decide (Vis tiny p)).length = 4 by decide, keep_tiny]
  exact ⟨by decide, by decide, rfl⟩

theorem sel_good : select tiny [0, 1, 2, 3, 4, 5, 6] (1 / 4) [0, 1, 2] = some [0, 1, 2, 3, 5, 6] :=
  select_eval 0 5 rfl rfl ⟨by decide, by decide, keep_tiny.symm⟩ (by decide) (by decide)

/-- A conversation with a later call that computes, late, the token the first call dropped. -/
example : ∃ st log, Calls tiny 6 st log ∧ st.len = 7 ∧ st.slot 1 3 = some 3 := by
  obtain ⟨st, log, h1, h2, h3, h4, h5⟩ := tiny_first
  have hc : (start st).cur = [0, 1, 2, 3, 4, 5, 6] := by
    unfold start
    rw [h4]
    rfl
  have e1 : ∃ t, decodeLayer tiny [0, 1, 2] 0 (start st) = some t ∧ t.cur = [0, 1, 2, 3, 5, 6] := by
    unfold decodeLayer
    rw [if_neg (by simp [start]), hc]
    dsimp only
    rw [show tiny.prune 0 = some (1 / 4) from rfl]
    dsimp only
    rw [sel_good, Option.bind_eq_bind, Option.bind_some]
    exact ⟨_, rfl, rfl⟩
  obtain ⟨t, t1, t2⟩ := e1
  have hal : Aligned tiny (fun _ => [0, 1, 2]) st := by
    intro l r hl hs hb p hp hm q hq
    obtain rfl : l = 0 := by
      have : l + 1 < 2 := hl
      omega
    rw [before, before, Option.bind_some, t1] at hb
    obtain rfl := Option.some.inj hb
    rw [h3, List.mem_singleton] at hm
    subst hm
    rw [t2]
    have : q = 0 ∨ q = 1 ∨ q = 2 := by omega
    rcases this with rfl | rfl | rfl <;> decide
  have hI := (prefill_inv (c := tiny) ⟨by decide, by decide, by decide⟩ h1).1
  have hD := before_decode (c := tiny) (pick := fun _ => [0, 1, 2]) (by decide) (by decide) (by rw [h4]; decide) hI hal 1 t (by decide)
    (by rw [before, before, Option.bind_some, t1])
  have e2 : ∃ u, decodeLayer tiny [0, 1, 2] 1 t = some u ∧ u.st.missing 1 = [] := by
    have hn := hD.need (by decide)
    have hr := hD.rows (by decide)
    have hL : t.cur.getLastD 0 = st.len := by rw [t2, h4]; rfl
    unfold decodeLayer
    rw [hL, if_neg (by rw [hr, List.length_map]; simp), show tiny.prune 1 = none from rfl]
    refine ⟨_, rfl, ?_⟩
    show Function.update t.st.missing 1 (visit (t.st.missing 1) t.cur) 1 = []
    rw [Function.update_self, hD.missTodo 1 le_rfl, h3, t2]
    decide
  obtain ⟨u, u1, u2⟩ := e2
  have hd : decode tiny (fun _ => [0, 1, 2]) st = some ({ u.st with len := st.len + 1 }, u.log) := by
    unfold decode
    rw [show tiny.layers = 2 from rfl]
    simp only [before, Option.bind_some, t1]
    rw [u1]
    rfl
  have hC : Calls tiny 6 { u.st with len := st.len + 1 } (log ++ u.log) := .next (.first h1) hal hd
  refine ⟨_, _, hC, by simp only [h4], ?_⟩
  refine (C177_decode_partial ⟨by decide, by decide, by decide⟩ hC).2.2 1 (by decide) 3 (by simp only [h4]; decide) ?_
  show 3 ∉ u.st.missing 1
  rw [u2]
  simp

end Verif.Lazy
