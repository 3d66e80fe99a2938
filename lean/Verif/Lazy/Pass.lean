import Verif.Lazy.Select

/-!
# The passes through the layers
-/

namespace Verif.Lazy

theorem sorted_ext {l m : List Nat} (hl : l.Pairwise (· < ·)) (hm : m.Pairwise (· < ·)) (h : ∀ p, p ∈ l ↔ p ∈ m) : l = m := by
  have hp : l.Perm m := (List.perm_ext_iff_of_nodup (hl.imp fun h => by omega) (hm.imp fun h => by omega)).mpr h
  exact hp.eq_of_pairwise (fun a b _ _ h1 h2 => by omega) hl hm

theorem store_some (f : Nat → Option Nat) (ps : List Nat) (p : Nat) : store f ps (ps.map some) p = if p ∈ ps then some p else f p := by
  unfold store
  induction ps generalizing f with
  | nil => simp
  | cons a l ih =>
    rw [List.map_cons, List.zip_cons_cons, List.foldl_cons, ih]
    by_cases h1 : p ∈ l
    · simp [h1]
    · by_cases h2 : p = a
      · simp [h2]
      · simp [h1, h2]

theorem mapping_map (this next : List Nat) : (mapping this next).map (fun i => this.getD i 0) = this.filter fun p => decide (p ∈ next) := by
  have e : this = (List.range this.length).map fun i => this.getD i 0 := by
    apply List.ext_getElem
    · simp
    · intro i h1 h2
      rw [List.getElem_map, List.getElem_range, List.getD_eq_getElem this 0 h1]
  conv_rhs => rw [e, List.filter_map]
  rfl

theorem mapping_rows {cur next : List Nat} (hc : cur.Pairwise (· < ·)) (hn : next.Pairwise (· < ·)) (hs : ∀ p ∈ next, p ∈ cur) :
    (mapping cur next).length = next.length ∧ (mapping cur next).map (fun i => (cur.map some).getD i none) = next.map some := by
  have h1 : (cur.filter fun p => decide (p ∈ next)) = next := by
    apply sorted_ext (hc.filter _) hn
    intro p
    rw [List.mem_filter, decide_eq_true_eq]
    exact ⟨fun h => h.2, fun h => ⟨hs p h, h⟩⟩
  have h2 := mapping_map cur next
  rw [h1] at h2
  constructor
  · have := congrArg List.length h2
    simpa using this
  · conv_rhs => rw [← h2, List.map_map]
    apply List.map_congr_left
    intro i hi
    unfold mapping at hi
    rw [List.mem_filter, List.mem_range] at hi
    rw [Function.comp_apply, List.getD_eq_getElem cur 0 hi.1, List.getD_eq_getElem (cur.map some) none (by simpa using hi.1), List.getElem_map]

/-- If nothing below the elements of `miss` is left out of `next`, indices and elements agree. -/
theorem mapping_aligned {next miss : List Nat} (hn : next.Pairwise (· < ·)) (h : ∀ p ∈ next, p ∈ miss → ∀ q, q < p → q ∈ next) :
    mapping next miss = next.filter fun p => decide (p ∈ miss) := by
  have hid : ∀ i, i ∈ mapping next miss → next.getD i 0 = i := by
    intro i hi
    unfold mapping at hi
    rw [List.mem_filter, List.mem_range, decide_eq_true_eq] at hi
    obtain ⟨hi, hm⟩ := hi
    rw [List.getD_eq_getElem next 0 hi] at hm ⊢
    have hall := h _ (List.getElem_mem hi) hm
    have hge : ∀ j (hj : j < next.length), j ≤ next[j] := by
      intro j
      induction j with
      | zero => intro _; omega
      | succ j ih =>
        intro hj
        have h1 := ih (by omega)
        have := (sorted_lt hn (by omega : j < next.length) hj).mpr (by omega)
        omega
    have h1 := hge i hi
    by_contra hne
    have hlt : i < next[i] := by omega
    have key : ∀ q, q < next[i] → ∃ (j : Nat) (hj : j < next.length), j < i ∧ next[j] = q := by
      intro q hq
      obtain ⟨j, hj, rfl⟩ := List.mem_iff_getElem.mp (hall q hq)
      exact ⟨j, hj, (sorted_lt hn hj hi).mp hq, rfl⟩
    have hinj : (List.range (i + 1)).length ≤ (List.range i).length := by
      have hsub : ∀ q ∈ List.range (i + 1), q ∈ (List.range i).map fun j => next.getD j 0 := by
        intro q hq
        rw [List.mem_range] at hq
        obtain ⟨j, hj, hji, rfl⟩ := key q (by omega)
        rw [List.mem_map]
        exact ⟨j, List.mem_range.mpr hji, List.getD_eq_getElem next 0 hj⟩
      have := (List.subperm_of_subset List.nodup_range hsub).length_le
      simpa using this
    simp at hinj
  rw [← mapping_map]
  conv_lhs => rw [← List.map_id (mapping next miss)]
  apply List.map_congr_left
  intro i hi
  exact (hid i hi).symm

/-! ## The first call -/

/-- Every read of an attention finds the key and value of its position. -/
def Good (log : List (Nat × Nat × Option Nat)) : Prop := ∀ e ∈ log, e.2.2 = some e.2.1

/-- The caches describe the computed tokens. -/
structure Inv (c : Cfg) (st : St) : Prop where
  slot : ∀ l, l < c.layers → ∀ p, p < st.len → p ∉ st.missing l → st.slot l p = some p
  vis : ∀ l, l < c.layers → ∀ p ∈ st.missing l, Vis c p
  hid : ∀ l, l < c.layers → (c.prune l).isSome → ∀ p, Vis c p → p ∉ st.missing l → st.hid l p = some p
  same : ∀ l, l + 1 < c.layers → c.prune l = none → st.missing (l + 1) = st.missing l
  first : 0 < c.layers → st.missing 0 = []

/-- The image lies inside the first call's tokens, with text before and after it. -/
structure Placed (c : Cfg) (S : Nat) : Prop where
  before : 1 ≤ c.first
  image : c.first ≤ c.last
  after : c.last < S

/-- Before layer `l` of the first call. -/
structure PInv (c : Cfg) (S l : Nat) (s : Pass) : Prop where
  sorted : s.cur.Pairwise (· < ·)
  lt : ∀ p ∈ s.cur, p < S
  text : ∀ p, p < S → ¬ Vis c p → p ∈ s.cur
  rows : s.rows = s.cur.map some
  log : Good s.log
  logAll : ∀ e ∈ s.log, e.1 < l
  zero : l = 0 → s.cur = List.range S
  slotDone : ∀ k, k < l → ∀ p, s.st.slot k p = if p < S ∧ p ∉ s.st.missing k then some p else none
  visDone : ∀ k, k < l → ∀ p ∈ s.st.missing k, Vis c p
  hidDone : ∀ k, k < l → (c.prune k).isSome → ∀ p, Vis c p → p ∉ s.st.missing k → s.st.hid k p = some p
  sameDone : ∀ k, k + 1 < l → c.prune k = none → s.st.missing (k + 1) = s.st.missing k
  firstDone : 0 < l → s.st.missing 0 = []
  slotTodo : ∀ k, l ≤ k → s.st.slot k = fun _ => none
  missTodo : ∀ k, l ≤ k → s.st.missing k = (fresh c).missing k
  link : ∀ k, k + 1 = l → c.prune k = none → s.st.missing k = visit ((fresh c).missing k) s.cur

theorem mem_fresh {c : Cfg} {k p : Nat} : p ∈ (fresh c).missing k ↔ Vis c p := by
  unfold fresh Vis
  simp only [List.mem_range'_1]
  omega

theorem mem_visit {m cur : List Nat} {p : Nat} : p ∈ visit m cur ↔ p ∈ m ∧ p ∉ cur := by
  unfold visit
  rw [List.mem_filter, decide_eq_true_eq]

theorem prefill_start (c : Cfg) {S : Nat} : PInv c S 0 ⟨fresh c, List.range S, [], (List.range S).map some, []⟩ where
  sorted := List.pairwise_lt_range
  lt := fun p hp => List.mem_range.mp hp
  text := fun p hp _ => List.mem_range.mpr hp
  rows := rfl
  log := fun e he => by simp at he
  logAll := fun e he => by simp at he
  zero := fun _ => rfl
  slotDone := fun k hk => by omega
  visDone := fun k hk => by omega
  hidDone := fun k hk => by omega
  sameDone := fun k hk => by omega
  firstDone := fun h => by omega
  slotTodo := fun _ _ => rfl
  missTodo := fun _ _ => rfl
  link := fun k hk => by omega

theorem prefill_layer {c : Cfg} {S l : Nat} {pick : List Nat} {s t : Pass} (hp : Placed c S) (h : PInv c S l s) (ht : prefillLayer c pick l s = some t) :
    PInv c S (l + 1) t ∧ (∀ rate, c.prune l = some rate → Selected c s.cur t.cur rate) := by
  have hslots : ∀ p, store (s.st.slot l) s.cur s.rows p = if p ∈ s.cur then some p else none := by
    intro p
    rw [h.rows, store_some, h.slotTodo l le_rfl]
  have hmiss : ∀ p, p ∈ visit (s.st.missing l) s.cur ↔ Vis c p ∧ p ∉ s.cur := by
    intro p
    rw [mem_visit, h.missTodo l le_rfl, mem_fresh]
  have hslot2 : ∀ p, (if p ∈ s.cur then some p else none) = if p < S ∧ p ∉ visit (s.st.missing l) s.cur then some p else none := by
    intro p
    congr 1
    rw [hmiss]
    apply propext
    constructor
    · intro hc
      exact ⟨h.lt p hc, fun hh => hh.2 hc⟩
    · rintro ⟨h1, h2⟩
      by_cases hv : Vis c p
      · by_contra hn
        exact h2 ⟨hv, hn⟩
      · exact h.text p h1 hv
  have hlog : Good (s.log ++ s.cur.map fun p => (l, p, store (s.st.slot l) s.cur s.rows p)) := by
    intro e he
    rcases List.mem_append.mp he with he | he
    · exact h.log e he
    · obtain ⟨p, hp, rfl⟩ := List.mem_map.mp he
      simp only
      rw [hslots, if_pos hp]
  have hall : ∀ e ∈ s.log ++ s.cur.map (fun p => (l, p, store (s.st.slot l) s.cur s.rows p)), e.1 < l + 1 := by
    intro e he
    rcases List.mem_append.mp he with he | he
    · have := h.logAll e he
      omega
    · obtain ⟨p, hp, rfl⟩ := List.mem_map.mp he
      simp
  unfold prefillLayer at ht
  rw [if_neg (by rw [h.rows, List.length_map]; simp)] at ht
  dsimp only at ht
  -- facts common to both branches
  have cSlot : ∀ k, k < l + 1 → ∀ p, Function.update s.st.slot l (store (s.st.slot l) s.cur s.rows) k p =
      if p < S ∧ p ∉ Function.update s.st.missing l (visit (s.st.missing l) s.cur) k then some p else none := by
    intro k hk p
    by_cases hkl : k = l
    · subst hkl
      rw [Function.update_self, Function.update_self, hslots, hslot2]
    · rw [Function.update_of_ne hkl, Function.update_of_ne hkl]
      exact h.slotDone k (by omega) p
  have cVis : ∀ k, k < l + 1 → ∀ p ∈ Function.update s.st.missing l (visit (s.st.missing l) s.cur) k, Vis c p := by
    intro k hk p hp
    by_cases hkl : k = l
    · subst hkl
      rw [Function.update_self] at hp
      exact ((hmiss p).mp hp).1
    · rw [Function.update_of_ne hkl] at hp
      exact h.visDone k (by omega) p hp
  have cSame : ∀ k, k + 1 < l + 1 → c.prune k = none →
      Function.update s.st.missing l (visit (s.st.missing l) s.cur) (k + 1) = Function.update s.st.missing l (visit (s.st.missing l) s.cur) k := by
    intro k hk hn
    by_cases hkl : k + 1 = l
    · rw [hkl, Function.update_self, Function.update_of_ne (by omega), h.link k hkl hn, h.missTodo l le_rfl]
      rfl
    · rw [Function.update_of_ne hkl, Function.update_of_ne (by omega)]
      exact h.sameDone k (by omega) hn
  have cFirst : 0 < l + 1 → Function.update s.st.missing l (visit (s.st.missing l) s.cur) 0 = [] := by
    intro _
    by_cases hl : 0 = l
    · subst hl
      rw [Function.update_self, List.eq_nil_iff_forall_not_mem]
      intro p hpm
      rw [hmiss, h.zero rfl, List.mem_range] at hpm
      have := hp.after
      unfold Vis at hpm
      omega
    · rw [Function.update_of_ne hl]
      exact h.firstDone (by omega)
  have cSlotT : ∀ k, l + 1 ≤ k → Function.update s.st.slot l (store (s.st.slot l) s.cur s.rows) k = fun _ => none := by
    intro k hk
    rw [Function.update_of_ne (by omega)]
    exact h.slotTodo k (by omega)
  have cMissT : ∀ k, l + 1 ≤ k → Function.update s.st.missing l (visit (s.st.missing l) s.cur) k = (fresh c).missing k := by
    intro k hk
    rw [Function.update_of_ne (by omega)]
    exact h.missTodo k (by omega)
  cases hpr : c.prune l with
  | none =>
    rw [hpr] at ht
    simp only at ht
    obtain rfl := Option.some.inj ht
    refine ⟨⟨h.sorted, h.lt, h.text, h.rows, hlog, hall, fun h => by omega, cSlot, cVis, ?_, cSame, cFirst, cSlotT, cMissT, ?_⟩, fun r hr => by cases hr⟩
    · intro k hk hs p hv hm
      by_cases hkl : k = l
      · subst hkl
        rw [hpr] at hs
        cases hs
      · simp only at hm
        rw [Function.update_of_ne hkl] at hm
        exact h.hidDone k (by omega) hs p hv hm
    · intro k hk hn
      obtain rfl : k = l := by omega
      simp only
      rw [Function.update_self, h.missTodo k le_rfl]
  | some rate =>
    rw [hpr] at ht
    simp only at ht
    cases hsel : select c s.cur rate pick with
    | none => rw [hsel] at ht; cases ht
    | some next =>
    rw [hsel] at ht
    simp only [Option.bind_eq_bind, Option.bind_some] at ht
    have hS := select_spec h.sorted hp.before hp.image hsel
    obtain ⟨m1, m2⟩ := mapping_rows h.sorted hS.sorted hS.sub
    rw [if_neg (by simpa using m1)] at ht
    obtain rfl := Option.some.inj ht
    refine ⟨⟨hS.sorted, fun p hp => h.lt p (hS.sub p hp), fun p hp hv => hS.text p (h.text p hp hv) hv, ?_, hlog, hall, fun h => by omega,
      cSlot, cVis, ?_, cSame, cFirst, cSlotT, cMissT, ?_⟩, fun r hr => by cases hr; exact hS⟩
    · simp only
      rw [h.rows, m2]
    · intro k hk hs p hv hm
      by_cases hkl : k = l
      · subst hkl
        simp only at hm ⊢
        rw [Function.update_self] at hm ⊢
        rw [h.rows, store_some, if_pos]
        by_contra hn
        exact hm ((hmiss p).mpr ⟨hv, hn⟩)
      · simp only at hm ⊢
        rw [Function.update_of_ne hkl] at hm ⊢
        exact h.hidDone k (by omega) hs p hv hm
    · intro k hk hn
      obtain rfl : k = l := by omega
      rw [hpr] at hn
      cases hn

theorem before_prefill {c : Cfg} {S : Nat} {pick : Nat → List Nat} (hp : Placed c S) : ∀ l r,
    before (fun l => prefillLayer c (pick l) l) ⟨fresh c, List.range S, [], (List.range S).map some, []⟩ l = some r → PInv c S l r := by
  intro l
  induction l with
  | zero =>
    intro r hr
    obtain rfl := Option.some.inj hr
    exact prefill_start c
  | succ l ih =>
    intro r hr
    rw [before] at hr
    cases hb : before (fun l => prefillLayer c (pick l) l) ⟨fresh c, List.range S, [], (List.range S).map some, []⟩ l with
    | none => rw [hb] at hr; cases hr
    | some s =>
      rw [hb, Option.bind_some] at hr
      exact (prefill_layer hp (ih s hb) hr).1

theorem prefill_inv {c : Cfg} {S : Nat} {pick : Nat → List Nat} {st : St} {log : List (Nat × Nat × Option Nat)} (hp : Placed c S)
    (h : prefill c pick S = some (st, log)) : Inv c st ∧ Good log ∧ st.len = S ∧
      ∀ l, l < c.layers → ∀ p, st.slot l p = if p < S ∧ p ∉ st.missing l then some p else none := by
  unfold prefill at h
  cases hb : before (fun l => prefillLayer c (pick l) l) ⟨fresh c, List.range S, [], (List.range S).map some, []⟩ c.layers with
  | none => simp only [hb] at h; cases h
  | some r =>
    simp only [hb, Option.bind_eq_bind, Option.bind_some, pure, Option.some.injEq, Prod.mk.injEq] at h
    obtain ⟨rfl, rfl⟩ := h
    have hI := before_prefill hp _ r hb
    refine ⟨⟨?_, hI.visDone, hI.hidDone, hI.sameDone, hI.firstDone⟩, hI.log, rfl, hI.slotDone⟩
    intro l hl p hp hm
    rw [hI.slotDone l hl p, if_pos ⟨hp, hm⟩]

end Verif.Lazy
