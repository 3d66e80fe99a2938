import Verif.Hybrid.Model
namespace Verif.Hybrid
open Verif.PyRadix hiding St Step Reach
open Verif.PyPool hiding St Step Reach init
open Verif.Runner

/-! ### Dicts -/

theorem get_none {d : List (Nat × Nat)} {k : Nat} (h : get d k = none) : ∀ p ∈ d, p.1 ≠ k := by
  intro p hp he
  rw [get, Option.map_eq_none_iff, List.find?_eq_none] at h
  exact h p hp (by simpa using he)

theorem get_none_of {d : List (Nat × Nat)} {k : Nat} (h : ∀ p ∈ d, p.1 ≠ k) : get d k = none := by
  rw [get, Option.map_eq_none_iff, List.find?_eq_none]
  intro p hp
  simpa using h p hp

theorem get_mem {d : List (Nat × Nat)} {k v : Nat} (h : get d k = some v) : (k, v) ∈ d := by
  rw [get, Option.map_eq_some_iff] at h
  obtain ⟨p, hp, rfl⟩ := h
  have h1 := List.mem_of_find?_eq_some hp
  have h2 := List.find?_some hp
  have : p.1 = k := by simpa using h2
  rw [← this]; exact h1

theorem get_cons (p : Nat × Nat) (d : List (Nat × Nat)) (k : Nat) : get (p :: d) k = if p.1 = k then some p.2 else get d k := by
  rw [get, List.find?_cons]
  by_cases h : p.1 = k
  · simp [h]
  · rw [if_neg h]
    have : (p.1 == k) = false := by simpa using h
    rw [this]; rfl

theorem get_pop (d : List (Nat × Nat)) (k j : Nat) : get (pop d k) j = if j = k then none else get d j := by
  induction d with
  | nil => simp [get, pop]
  | cons p d ih =>
    rw [pop, List.filter_cons]
    rw [pop] at ih
    by_cases h : p.1 = k
    · have : (p.1 != k) = false := by simpa using h
      rw [this, if_neg (by simp), ih, get_cons]
      by_cases hj : j = k
      · simp [hj]
      · rw [if_neg hj, if_neg hj, if_neg (fun e => hj (e.symm.trans h))]
    · have : (p.1 != k) = true := by simpa using h
      rw [this, if_pos rfl, get_cons, get_cons, ih]
      by_cases hj : j = k
      · subst hj; simp [h]
      · simp [hj]

theorem mem_pop {d : List (Nat × Nat)} {k : Nat} {p : Nat × Nat} : p ∈ pop d k ↔ p ∈ d ∧ p.1 ≠ k := by
  rw [pop, List.mem_filter]; simp

theorem get_eq_of_mem {d : List (Nat × Nat)} (hn : (d.map (·.1)).Nodup) {k v : Nat} (h : (k, v) ∈ d) : get d k = some v := by
  induction d with
  | nil => cases h
  | cons p d ih =>
    rw [List.map_cons, List.nodup_cons] at hn
    rw [get_cons]
    rcases List.mem_cons.1 h with rfl | h
    · simp
    · rw [if_neg, ih hn.2 h]
      intro he
      exact hn.1 (List.mem_map.2 ⟨(k, v), h, he.symm⟩)

/-! ### The cache under the steps of the runner -/

/-- What is needed of a change of the cache: `held` are the locks afterwards. -/
structure Chg (c c' : Cache) (held : List Nat) : Prop where
  inv : PyRadix.Inv 1 ⟨c', held⟩
  path : ∀ y e k s, PathTo y c.tree e k s → PathTo y c'.tree e k s

theorem chg_insert {c : Cache} {held : List Nat} (h : PyRadix.Inv 1 ⟨c, held⟩) (now : Nat) (key : Key) (val : Slots) (hl : val.length = key.length) :
    Chg c (PyRadix.insert 1 now c none key val).2 held ∧
    ∀ y, (PyRadix.insert 1 now c none key val).1.2 = some y → ∃ sl, PathTo y (PyRadix.insert 1 now c none key val).2.tree none key sl := by
  obtain ⟨old, sp⟩ := insert_spec h now key val hl
  refine ⟨⟨sp.inv, sp.path⟩, ?_⟩
  intro y hy
  by_cases hk : key = []
  · simp [PyRadix.insert, hk] at hy
  · obtain ⟨s0, ok⟩ := insRoot_ok Nat.one_pos (e := none) (now := now) (fresh := c.fresh) h.wf hk (Nat.one_dvd _) hl
    simp only [PyRadix.insert, if_neg hk, Option.some.injEq] at hy ⊢
    rw [← hy]
    exact ⟨_, ok.last⟩

theorem chg_match {c : Cache} {held : List Nat} (h : PyRadix.Inv 1 ⟨c, held⟩) (now : Nat) (key : Key) :
    Chg c (matchPrefix 1 now c none key).2 held :=
  ⟨(match_spec h now key).inv, (match_spec h now key).path⟩

theorem chg_lock {c : Cache} {held : List Nat} (h : PyRadix.Inv 1 ⟨c, held⟩) (o : Option Nat) (hm : ∀ y, o = some y → y ∈ ids c.tree) :
    Chg c (lockOpt c o) (o.toList ++ held) :=
  ⟨inv_lockOpt h o hm, fun y e k s hp => ((same_lock c o).path y e k s).2 hp⟩

theorem chg_unlock {c : Cache} {held : List Nat} (o : Option Nat) (h : PyRadix.Inv 1 ⟨c, o.toList ++ held⟩) : Chg c (unlockOpt c o) held :=
  ⟨inv_unlockOpt o h, fun y e k s hp => ((same_unlock c o).path y e k s).2 hp⟩

/-- Eviction keeps the paths to all nodes that stay. -/
theorem evict_run {held : List Nat} {c0 : Cache} {target : Nat} {s s' : EvSt} (h : EvictRun target s s') (hi : EvInv 1 held c0 s) :
    ∀ y e k v, y ∈ ids s'.cache.tree → PathTo y s.cache.tree e k v → PathTo y s'.cache.tree e k v := by
  induction h with
  | enough s _ => exact fun _ _ _ _ _ hp => hp
  | empty s _ => exact fun _ _ _ _ _ hp => hp
  | @pop s s' t x hlt hm hmin hr ih =>
    have hi' := evInv_pop hi hm
    intro y e k v hy hp
    refine ih hi' y e k v hy ?_
    rw [evictPop]
    cases hx : info s.cache.tree x with
    | none => exact hp
    | some n =>
      obtain ⟨hn, rfl⟩ := info_some hx
      simp only []
      split
      · exact hp
      · have hl := (hi.leafy _ hm n hn rfl).1
        have cut := cut_leaf hi.inv.nodup hn hl
        refine cut.path y e k v ?_ hp
        rintro rfl
        have hsub : ∀ {s s' : EvSt}, EvictRun target s s' → EvInv 1 held c0 s → ∀ z ∈ ids s'.cache.tree, z ∈ ids s.cache.tree := by
          clear * -
          intro s s' h
          induction h with
          | enough s _ => exact fun _ _ hz => hz
          | empty s _ => exact fun _ _ hz => hz
          | @pop s s' t x hlt hm hmin hr ih =>
            intro hi z hz
            have hz' := ih (evInv_pop hi hm) z hz
            rw [evictPop] at hz'
            cases hx : info s.cache.tree x with
            | none => rw [hx] at hz'; exact hz'
            | some n =>
              rw [hx] at hz'
              obtain ⟨hn, rfl⟩ := info_some hx
              simp only [] at hz'
              split at hz'
              · exact hz'
              · have cut := cut_leaf hi.inv.nodup hn (hi.leafy _ hm n hn rfl).1
                exact cut.ids.mem_iff.2 (List.mem_cons_of_mem _ hz')
        have hy' := hsub hr hi' _ hy
        rw [evictPop, hx] at hy'
        simp only [] at hy'
        rename_i hc
        rw [if_neg hc] at hy'
        have hnd := (cut.ids.nodup_iff).1 hi.inv.nodup
        exact (List.nodup_cons.1 hnd).1 hy'

theorem evict_keep {c c' : Cache} {held : List Nat} (h : PyRadix.Inv 1 ⟨c, held⟩) {target : Nat} {freed : Slots} (he : Evict target c freed c') :
    ∀ y e k v, y ∈ ids c'.tree → PathTo y c.tree e k v → PathTo y c'.tree e k v := by
  rw [Evict] at he
  split at he
  · obtain ⟨_, rfl⟩ := he
    exact fun _ _ _ _ _ hp => hp
  · obtain ⟨s, hr, _, rfl⟩ := he
    exact evict_run hr (evInv_init h)

/-! ### Lists of requests -/

theorem perm_locks {a b : List Req} (h : a.Perm b) : (a.filterMap (·.lock)).Perm (b.filterMap (·.lock)) := h.filterMap _

end Verif.Hybrid
