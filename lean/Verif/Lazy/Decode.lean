import Verif.Lazy.Pass

/-!
# Later calls
-/

namespace Verif.Lazy

/-- Whatever a pruning layer keeps although the next layer has not computed it, nothing below it was left out. -/
def Aligned (c : Cfg) (pick : Nat → List Nat) (st : St) : Prop :=
  ∀ l t, l + 1 < c.layers → (c.prune l).isSome → before (fun l => decodeLayer c (pick l) l) (start st) (l + 1) = some t →
    ∀ p ∈ t.cur, p ∈ st.missing (l + 1) → ∀ q, q < p → q ∈ t.cur

/-- Before layer `l` of a later call that started with the caches `o`. -/
structure DInv (c : Cfg) (o : St) (l : Nat) (s : Pass) : Prop where
  len : s.st.len = o.len
  sorted : s.cur.Pairwise (· < ·)
  le : ∀ p ∈ s.cur, p ≤ o.len
  text : ∀ p, p ≤ o.len → ¬ Vis c p → p ∈ s.cur
  need : l < c.layers → s.need = s.cur.filter fun p => decide (p ∈ o.missing l)
  rows : l < c.layers → s.rows = (s.need ++ [o.len]).map some
  log : Good s.log
  zero : l = 0 → s.cur = List.range (1 + o.len)
  slotDone : ∀ k, k < l → ∀ p, p < o.len + 1 → p ∉ s.st.missing k → s.st.slot k p = some p
  visDone : ∀ k, k < l → ∀ p ∈ s.st.missing k, Vis c p
  hidDone : ∀ k, k < l → (c.prune k).isSome → ∀ p, Vis c p → p ∉ s.st.missing k → s.st.hid k p = some p
  sameDone : ∀ k, k + 1 < l → c.prune k = none → s.st.missing (k + 1) = s.st.missing k
  firstDone : 0 < l → s.st.missing 0 = []
  slotTodo : ∀ k, l ≤ k → s.st.slot k = o.slot k
  missTodo : ∀ k, l ≤ k → s.st.missing k = o.missing k
  hidTodo : ∀ k, l ≤ k → s.st.hid k = o.hid k
  link : ∀ k, k + 1 = l → l < c.layers → c.prune k = none → s.st.missing k = visit (o.missing l) s.cur

theorem decode_start {c : Cfg} {o : St} (h : Inv c o) : DInv c o 0 (start o) where
  len := rfl
  sorted := List.pairwise_lt_range
  le := fun p hp => by have := List.mem_range.mp hp; omega
  text := fun p hp _ => List.mem_range.mpr (by omega)
  need := fun hl => by
    rw [h.first hl]
    simp [start]
  rows := fun _ => rfl
  log := fun e he => by simp [start] at he
  zero := fun _ => rfl
  slotDone := fun k hk => by omega
  visDone := fun k hk => by omega
  hidDone := fun k hk => by omega
  sameDone := fun k hk => by omega
  firstDone := fun h => by omega
  slotTodo := fun _ _ => rfl
  missTodo := fun _ _ => rfl
  hidTodo := fun _ _ => rfl
  link := fun k hk => by omega

theorem last_of_max {cur : List Nat} {n : Nat} (hs : cur.Pairwise (· < ·)) (hm : n ∈ cur) (hl : ∀ p ∈ cur, p ≤ n) : cur.getLastD 0 = n := by
  have hne : cur ≠ [] := by rintro rfl; cases hm
  rw [List.getLastD_eq_getLast?, List.getLast?_eq_getLast_of_ne_nil hne, Option.getD_some]
  rw [List.getLast_eq_getElem]
  obtain ⟨i, hi, he⟩ := List.mem_iff_getElem.mp hm
  have h1 := hl _ (List.getElem_mem (by omega : cur.length - 1 < cur.length))
  by_cases hc : i = cur.length - 1
  · subst hc
    exact he
  · have := (sorted_lt hs hi (by omega : cur.length - 1 < cur.length)).mpr (by omega)
    omega

theorem decode_layer {c : Cfg} {o : St} {l : Nat} {pick : List Nat} {s t : Pass} (hf : 1 ≤ c.first) (hfl : c.first ≤ c.last) (hlast : c.last < o.len)
    (ho : Inv c o) (hl : l < c.layers) (h : DInv c o l s) (ht : decodeLayer c pick l s = some t)
    (hal : l + 1 < c.layers → (c.prune l).isSome → ∀ p ∈ t.cur, p ∈ o.missing (l + 1) → ∀ q, q < p → q ∈ t.cur) :
    DInv c o (l + 1) t ∧ (∀ rate, c.prune l = some rate → Selected c s.cur t.cur rate) := by
  have hnv : ¬ Vis c o.len := by unfold Vis; omega
  have hmem : o.len ∈ s.cur := h.text _ le_rfl hnv
  have hL : s.cur.getLastD 0 = o.len := last_of_max h.sorted hmem h.le
  have hrows := h.rows hl
  have hneed := h.need hl
  have hslots : ∀ p, store (s.st.slot l) (s.need ++ [o.len]) s.rows p = if p ∈ s.need ++ [o.len] then some p else o.slot l p := by
    intro p
    rw [hrows, store_some, h.slotTodo l le_rfl]
  have hmiss : ∀ p, p ∈ visit (s.st.missing l) s.cur ↔ p ∈ o.missing l ∧ p ∉ s.cur := by
    intro p
    rw [mem_visit, h.missTodo l le_rfl]
  have hdone : ∀ p, p < o.len + 1 → p ∉ visit (s.st.missing l) s.cur → store (s.st.slot l) (s.need ++ [o.len]) s.rows p = some p := by
    intro p hp hm
    rw [hslots]
    split_ifs with hc
    · rfl
    · rw [List.mem_append, hneed, List.mem_filter, decide_eq_true_eq, List.mem_singleton, not_or] at hc
      rw [hmiss] at hm
      refine ho.slot l hl p (by omega) fun hpm => ?_
      by_cases hpc : p ∈ s.cur
      · exact hc.1 ⟨hpc, hpm⟩
      · exact hm ⟨hpm, hpc⟩
  have hlog : Good (s.log ++ s.cur.map fun p => (l, p, store (s.st.slot l) (s.need ++ [o.len]) s.rows p)) := by
    intro e he
    rcases List.mem_append.mp he with he | he
    · exact h.log e he
    · obtain ⟨p, hp, rfl⟩ := List.mem_map.mp he
      simp only
      refine hdone p (by have := h.le p hp; omega) fun hh => ?_
      exact ((hmiss p).mp hh).2 hp
  unfold decodeLayer at ht
  rw [hL] at ht
  dsimp only at ht
  rw [if_neg (by rw [hrows, List.length_map]; simp)] at ht
  have cSlot : ∀ k, k < l + 1 → ∀ p, p < o.len + 1 → p ∉ Function.update s.st.missing l (visit (s.st.missing l) s.cur) k →
      Function.update s.st.slot l (store (s.st.slot l) (s.need ++ [o.len]) s.rows) k p = some p := by
    intro k hk p hp hm
    by_cases hkl : k = l
    · subst hkl
      rw [Function.update_self] at hm ⊢
      exact hdone p hp hm
    · rw [Function.update_of_ne hkl] at hm ⊢
      exact h.slotDone k (by omega) p hp hm
  have cVis : ∀ k, k < l + 1 → ∀ p ∈ Function.update s.st.missing l (visit (s.st.missing l) s.cur) k, Vis c p := by
    intro k hk p hp
    by_cases hkl : k = l
    · subst hkl
      rw [Function.update_self, hmiss] at hp
      exact ho.vis k hl p hp.1
    · rw [Function.update_of_ne hkl] at hp
      exact h.visDone k (by omega) p hp
  have cSame : ∀ k, k + 1 < l + 1 → c.prune k = none →
      Function.update s.st.missing l (visit (s.st.missing l) s.cur) (k + 1) = Function.update s.st.missing l (visit (s.st.missing l) s.cur) k := by
    intro k hk hn
    by_cases hkl : k + 1 = l
    · rw [hkl, Function.update_self, Function.update_of_ne (by omega), h.link k hkl hl hn, h.missTodo l le_rfl]
    · rw [Function.update_of_ne hkl, Function.update_of_ne (by omega)]
      exact h.sameDone k (by omega) hn
  have cFirst : 0 < l + 1 → Function.update s.st.missing l (visit (s.st.missing l) s.cur) 0 = [] := by
    intro _
    by_cases hl0 : 0 = l
    · subst hl0
      rw [Function.update_self, h.missTodo 0 le_rfl, ho.first hl]
      rfl
    · rw [Function.update_of_ne hl0]
      exact h.firstDone (by omega)
  have cSlotT : ∀ k, l + 1 ≤ k → Function.update s.st.slot l (store (s.st.slot l) (s.need ++ [o.len]) s.rows) k = o.slot k := by
    intro k hk
    rw [Function.update_of_ne (by omega)]
    exact h.slotTodo k (by omega)
  have cMissT : ∀ k, l + 1 ≤ k → Function.update s.st.missing l (visit (s.st.missing l) s.cur) k = o.missing k := by
    intro k hk
    rw [Function.update_of_ne (by omega)]
    exact h.missTodo k (by omega)
  cases hpr : c.prune l with
  | none =>
    rw [hpr] at ht
    simp only at ht
    obtain rfl := Option.some.inj ht
    refine ⟨⟨h.len, h.sorted, h.le, h.text, ?_, fun _ => hrows, hlog, fun h => by omega, cSlot, cVis, ?_, cSame, cFirst, cSlotT, cMissT,
      fun k hk => h.hidTodo k (by omega), ?_⟩, fun r hr => by cases hr⟩
    · intro hl1
      simp only
      rw [hneed, ho.same l hl1 hpr]
    · intro k hk hs p hv hm
      by_cases hkl : k = l
      · subst hkl
        rw [hpr] at hs
        cases hs
      · simp only at hm
        rw [Function.update_of_ne hkl] at hm
        exact h.hidDone k (by omega) hs p hv hm
    · intro k hk hl1 hn
      obtain rfl : k = l := by omega
      simp only
      rw [Function.update_self, h.missTodo k le_rfl, ho.same k hl1 hpr]
  | some rate =>
    rw [hpr] at ht
    simp only at ht
    cases hsel : select c s.cur rate pick with
    | none => rw [hsel] at ht; cases ht
    | some next =>
    rw [hsel] at ht
    simp only [Option.bind_eq_bind, Option.bind_some] at ht
    have hS := select_spec h.sorted hf hfl hsel
    obtain rfl := Option.some.inj ht
    have hrl : s.rows.getLastD none = some o.len := by
      rw [hrows, List.map_append, List.map_singleton, List.getLastD_concat]
    have hrd : s.rows.dropLast = s.need.map some := by
      rw [hrows, List.map_append, List.map_singleton, List.dropLast_concat]
    have hhid : ∀ p, Vis c p → p ∉ visit (s.st.missing l) s.cur → store (s.st.hid l) s.need s.rows.dropLast p = some p := by
      intro p hv hm
      rw [hrd, store_some, h.hidTodo l le_rfl]
      split_ifs with hc
      · rfl
      · refine ho.hid l hl (by rw [hpr]; rfl) p hv fun hpm => ?_
        rw [hneed, List.mem_filter, decide_eq_true_eq] at hc
        rw [hmiss] at hm
        by_cases hpc : p ∈ s.cur
        · exact hc ⟨hpc, hpm⟩
        · exact hm ⟨hpm, hpc⟩
    have hneed2 : l + 1 < c.layers → (mapping next (Function.update s.st.missing l (visit (s.st.missing l) s.cur) (l + 1))).mergeSort (fun a b => decide (a ≤ b))
        = next.filter fun p => decide (p ∈ o.missing (l + 1)) := by
      intro hl1
      rw [cMissT (l + 1) le_rfl, mapping_aligned hS.sorted (hal hl1 (by rw [hpr]; rfl))]
      exact sort_id (hS.sorted.filter _)
    refine ⟨⟨h.len, hS.sorted, fun p hp => h.le p (hS.sub p hp), fun p hp hv => hS.text p (h.text p hp hv) hv, hneed2, ?_, hlog, fun h => by omega,
      cSlot, cVis, ?_, cSame, cFirst, cSlotT, cMissT, ?_, ?_⟩, fun r hr => by cases hr; exact hS⟩
    · intro hl1
      simp only
      rw [hneed2 hl1, Function.update_self, hrl, List.map_append, List.map_singleton]
      congr 1
      apply List.map_congr_left
      intro p hp
      rw [List.mem_filter, decide_eq_true_eq] at hp
      refine hhid p (ho.vis _ hl1 p hp.2) fun hh => ?_
      exact ((hmiss p).mp hh).2 (hS.sub p hp.1)
    · intro k hk hs p hv hm
      by_cases hkl : k = l
      · subst hkl
        simp only at hm ⊢
        rw [Function.update_self] at hm ⊢
        exact hhid p hv hm
      · simp only at hm ⊢
        rw [Function.update_of_ne hkl] at hm ⊢
        exact h.hidDone k (by omega) hs p hv hm
    · intro k hk
      simp only
      rw [Function.update_of_ne (by omega)]
      exact h.hidTodo k (by omega)
    · intro k hk hl1 hn
      obtain rfl : k = l := by omega
      rw [hpr] at hn
      cases hn

theorem before_decode {c : Cfg} {o : St} {pick : Nat → List Nat} (hf : 1 ≤ c.first) (hfl : c.first ≤ c.last) (hlast : c.last < o.len)
    (ho : Inv c o) (hal : Aligned c pick o) : ∀ l r, l ≤ c.layers → before (fun l => decodeLayer c (pick l) l) (start o) l = some r → DInv c o l r := by
  intro l
  induction l with
  | zero =>
    intro r _ hr
    obtain rfl := Option.some.inj hr
    exact decode_start ho
  | succ l ih =>
    intro r hl hr
    have hr' := hr
    rw [before] at hr
    cases hb : before (fun l => decodeLayer c (pick l) l) (start o) l with
    | none => rw [hb] at hr; cases hr
    | some s =>
      rw [hb, Option.bind_some] at hr
      exact (decode_layer hf hfl hlast ho (by omega) (ih s (by omega) hb) hr fun h1 h2 => hal l r h1 h2 hr').1

theorem decode_inv {c : Cfg} {o st : St} {pick : Nat → List Nat} {log : List (Nat × Nat × Option Nat)} (hf : 1 ≤ c.first) (hfl : c.first ≤ c.last)
    (hlast : c.last < o.len) (ho : Inv c o) (hal : Aligned c pick o) (h : decode c pick o = some (st, log)) :
    Inv c st ∧ Good log ∧ st.len = o.len + 1 := by
  unfold decode at h
  cases hb : before (fun l => decodeLayer c (pick l) l) (start o) c.layers with
  | none => simp only [hb] at h; cases h
  | some r =>
    simp only [hb, Option.bind_eq_bind, Option.bind_some, pure, Option.some.injEq, Prod.mk.injEq] at h
    obtain ⟨rfl, rfl⟩ := h
    have hI := before_decode hf hfl hlast ho hal _ r le_rfl hb
    exact ⟨⟨fun l hl p hp hm => hI.slotDone l hl p hp hm, hI.visDone, hI.hidDone, hI.sameDone, hI.firstDone⟩, hI.log, rfl⟩

end Verif.Lazy
