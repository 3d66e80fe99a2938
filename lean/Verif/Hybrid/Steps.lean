import Verif.Hybrid.Inv
namespace Verif.Hybrid
open Verif.PyRadix hiding St Step Reach
open Verif.PyPool hiding St Step Reach init
open Verif.Runner

variable {maxReqs tracks : Nat} {ne : Prop}

theorem TInv.mono {ne' : Prop} {c : Cache} {rows : Rows} {reqs : List Req} {free : List Nat} {rts snap : List (Nat × Nat)}
    (h : TInv maxReqs tracks ne c rows reqs free rts snap) (hn : ne' → ne) : TInv maxReqs tracks ne' c rows reqs free rts snap := by
  obtain ⟨lost, e, e2⟩ := h.tracks
  exact ⟨h.cinv, h.rows, h.rid, h.out, h.out', h.start, h.hit, h.snapMem, h.snapNd, h.rtsMem, h.rtsNd, ⟨lost, e, fun x => e2 (hn x)⟩,
    fun x => h.nonempty (hn x)⟩

theorem tinv_init (size : Nat) (b : Bool) : (HSt.init size maxReqs tracks b).TInv maxReqs tracks ne := by
  refine ⟨inv_init 1, ?_, List.nodup_nil, ?_, ?_, ?_, ?_, ?_, List.nodup_nil, ?_, List.nodup_nil, ⟨0, ?_, fun _ => rfl⟩, ?_⟩
  · simp [HSt.init, St.init, rowsInit]
  all_goals first
    | (intro _ r hr; cases hr; done)
    | (intro r hr; cases hr; done)
    | skip
  simp [HSt.init, St.init, pend]

/-- What starts with a match: the length used, and the hit. -/
theorem start_facts {s : HSt} {held : List Nat} (hi : PyRadix.Inv 1 ⟨s.base.cache, held⟩) (now : Nat) (inp : Key) :
    let r := matchPrefix 1 now s.base.cache none inp
    let n := capped inp.length (if s.discards now inp then 0 else r.1.1.length)
    n ≤ r.1.1.length ∧ r.1.1.length ≤ inp.length ∧ (0 < n → s.discards now inp = false ∧ ∃ y sl ts, r.1.2 = some y ∧
      PathTo y r.2.tree none (inp.take r.1.1.length) sl ∧ get s.snap y = some ts) := by
  intro r n
  have sp := match_spec hi now inp
  refine ⟨?_, sp.le, ?_⟩
  · refine (capped_le _ _).trans ?_
    split
    · exact Nat.zero_le _
    · exact le_refl _
  · intro hpos
    have hd : s.discards now inp = false := by
      by_contra hh
      have hh : s.discards now inp = true := by simpa using hh
      simp only [n, hh, if_true, capped_zero] at hpos
      omega
    refine ⟨hd, ?_⟩
    simp only [n, hd] at hpos
    have hlen : 0 < r.1.1.length := lt_of_lt_of_le hpos (capped_le _ _)
    cases hy : r.1.2 with
    | none =>
      have := sp.root hy
      have h0 : r.1.1 = [] := this
      rw [h0] at hlen; cases hlen
    | some y =>
      refine ⟨y, r.1.1, ?_⟩
      have hp := sp.hlast y hy
      cases hg : get s.snap y with
      | some ts => exact ⟨ts, rfl, hp, rfl⟩
      | none =>
        exfalso
        have hrd : matchPrefix 1 now s.base.cache none inp = ((r.1.1, some y), r.2) := by
          rw [← hy]
        rw [HSt.discards, hrd] at hd
        simp [hg] at hd
        rw [hd] at hlen
        cases hlen

theorem tinv_start {s : HSt} (h : s.TInv maxReqs tracks ne) (now rid : Nat) (inp : Key) (hr : ∀ q ∈ s.base.reqs, q.rid ≠ rid) :
    (s.start now rid inp).TInv maxReqs tracks (ne ∧ inp ≠ []) := by
  have hm : s.TInv maxReqs tracks (ne ∧ inp ≠ []) := TInv.mono h And.left
  unfold HSt.start HSt.TInv
  simp only []
  rw [St.start]
  by_cases hc : (Mode.hybrid = Mode.off ∨ inp = [])
  · rw [if_pos hc]
    have := TInv.start_step (m := 0) (M := 0) (c1 := s.base.cache) (idx := []) (lock := none) (inp := inp) hm hr ⟨hm.cinv, fun _ _ _ _ hp => hp⟩
      (fun y hy => by cases hy) rfl (le_refl _) (Nat.zero_le _) (fun h => absurd h (lt_irrefl _)) (fun h => absurd h (lt_irrefl _)) And.right
    exact this
  · rw [if_neg hc]
    obtain ⟨f1, f2, f3⟩ := start_facts hm.cinv now inp
    set r := matchPrefix 1 now s.base.cache none inp with hrdef
    set n := capped inp.length (if s.discards now inp then 0 else r.1.1.length) with hn
    refine TInv.start_step (M := r.1.1.length) hm hr (chg_match hm.cinv now inp) ?_ ?_ f1 f2 ?_ ?_ And.right
    · intro y hy
      replace hy : (if 0 < n then r.1.2 else none) = some y := hy
      split at hy
      · have sp := match_spec hm.cinv now inp
        exact pathTo_mem (sp.hlast y hy)
      · cases hy
    · rw [List.length_take]; omega
    · intro hpos
      have hd := (f3 hpos).1
      show capped inp.length (if s.discards now inp then 0 else r.1.1.length) = _
      rw [hd]; simp
    · intro hpos
      obtain ⟨_, y, sl, ts, a, b, d⟩ := f3 hpos
      exact ⟨y, sl, ts, by rw [if_pos hpos]; exact a, b, d⟩

/-- The cache after the insertion of a prompt. -/
theorem commit_chg {c : Cache} {r : Req} {rest : List Nat} (hi : PyRadix.Inv 1 ⟨c, r.lock.toList ++ rest⟩) (now : Nat) (val : Slots)
    (hl : val.length = r.inp.length) :
    let i := PyRadix.insert 1 now c none r.inp val
    let w := matchPrefix 1 now i.2 none r.inp
    let lock := if 0 < w.1.1.length then w.1.2 else none
    PyRadix.Inv 1 ⟨lockOpt (unlockOpt w.2 r.lock) lock, lock.toList ++ rest⟩ ∧
    (∀ y e k s, PathTo y c.tree e k s → PathTo y (lockOpt (unlockOpt w.2 r.lock) lock).tree e k s) ∧
    ∀ y, i.1.2 = some y → ∃ sl, PathTo y (lockOpt (unlockOpt w.2 r.lock) lock).tree none r.inp sl := by
  intro i w lock
  obtain ⟨c1, c1'⟩ := chg_insert hi now r.inp val hl
  have c2 := chg_match c1.inv now r.inp
  have c3 := chg_unlock (c := w.2) r.lock c2.inv
  have c4 := chg_lock c3.inv lock (by
    intro y hy
    simp only [lock] at hy
    split at hy
    · have := (match_spec c1.inv now r.inp).hlast y hy
      exact pathTo_mem (((same_unlock w.2 r.lock).path y _ _ _).2 this)
    · cases hy)
  refine ⟨c4.inv, fun y e k s hp => c4.path _ _ _ _ (c3.path _ _ _ _ (c2.path _ _ _ _ (c1.path _ _ _ _ hp))), ?_⟩
  intro y hy
  obtain ⟨sl, hp⟩ := c1' y hy
  exact ⟨sl, c4.path _ _ _ _ (c3.path _ _ _ _ (c2.path _ _ _ _ hp))⟩

theorem insert_last_none {P now : Nat} {c : Cache} {e : Ext} {key : Key} {val : Slots} : (PyRadix.insert P now c e key val).1.2 = none ↔ key = [] := by
  rw [PyRadix.insert]
  split
  · simp_all
  · simp_all

theorem rid_none_rest {r : Req} {rest : List Req} (hn : ((r :: rest).map (·.rid)).Nodup) {q : Req} (hq : q ∈ rest) : q.rid ≠ r.rid := by
  rw [List.map_cons, List.nodup_cons] at hn
  intro he
  exact hn.1 (List.mem_map.2 ⟨q, hq, he⟩)

/-- `TInv.after_step` for the fields that a prefill changes. -/
theorem TInv.commit_step {c c' : Cache} {rows : Rows} {free : List Nat} {rts snap : List (Nat × Nat)} {r : Req} {rest : List Req}
    (h : TInv maxReqs tracks ne c rows (r :: rest) free rts snap) {row : Nat} (hrow : r.row = some row) {tok : Int} {p : Nat} {lk : Option Nat}
    (hc : PyRadix.Inv 1 ⟨c', lk.toList ++ rest.filterMap (·.lock)⟩) (hp : ∀ y e k s, PathTo y c.tree e k s → PathTo y c'.tree e k s)
    {free' : List Nat} {rts' snap' : List (Nat × Nat)} (hs1 : ∀ p ∈ snap', ∃ k sl, PathTo p.1 c'.tree none k sl) (hs2 : (snap'.map (·.1)).Nodup)
    (hs3 : ∀ y v, get snap y = some v → get snap' y = some v)
    (hr1 : rts'.Sublist rts) (hr2 : ∀ q ∈ rest, get rts' q.rid = get rts q.rid)
    (extra : Multiset Nat) (ht : (free' : Multiset Nat) + (snap'.map (·.2) : List Nat) + extra =
      (free : Multiset Nat) + (snap.map (·.2) : List Nat) + ((if r.done then none else get rts r.rid).toList : List Nat))
    (hx : ne → extra = 0) :
    TInv maxReqs tracks ne c' rows ({ r with out := [tok], prot := p, lock := lk, done := true } :: rest) free' rts' snap' :=
  TInv.after_step (r' := { r with out := [tok], prot := p, lock := lk, done := true }) h hrow rfl rfl rfl rfl (List.cons_ne_nil _ _) hc hp hs1 hs2 hs3 hr1 hr2 ht hx

theorem tinv_commit {s : HSt} {r : Req} {rest : List Req} (h : TInv maxReqs tracks ne s.base.cache s.base.rows (r :: rest) s.free s.rts s.snap) {row : Nat}
    (hrow : r.row = some row) (hd : r.done = false) (now : Nat) (tok : Int) : (s.commit now r rest row tok).TInv maxReqs tracks ne := by
  have hci := h.cinv
  rw [filterMap_opt] at hci
  have hb := commit_chg hci now (read s.base.table row r.inp.length) (read_length _ _ _)
  obtain ⟨b1, b2, b3⟩ := hb
  have hcb : ∀ (fr : List Nat) (rt sn : List (Nat × Nat)), TInv maxReqs tracks ne
      (s.base.commit .hybrid now r rest row tok).cache (s.base.commit .hybrid now r rest row tok).rows (s.base.commit .hybrid now r rest row tok).reqs fr rt sn ↔
      TInv maxReqs tracks ne (lockOpt (unlockOpt (matchPrefix 1 now (PyRadix.insert 1 now s.base.cache none r.inp (read s.base.table row r.inp.length)).2 none r.inp).2 r.lock)
        (if 0 < (matchPrefix 1 now (PyRadix.insert 1 now s.base.cache none r.inp (read s.base.table row r.inp.length)).2 none r.inp).1.1.length then
          (matchPrefix 1 now (PyRadix.insert 1 now s.base.cache none r.inp (read s.base.table row r.inp.length)).2 none r.inp).1.2 else none)) s.base.rows
        ({ r with
            out := [tok]
            prot := (matchPrefix 1 now (PyRadix.insert 1 now s.base.cache none r.inp (read s.base.table row r.inp.length)).2 none r.inp).1.1.length
            lock := (if 0 < (matchPrefix 1 now (PyRadix.insert 1 now s.base.cache none r.inp (read s.base.table row r.inp.length)).2 none r.inp).1.1.length then
              (matchPrefix 1 now (PyRadix.insert 1 now s.base.cache none r.inp (read s.base.table row r.inp.length)).2 none r.inp).1.2 else none)
            done := true } :: rest) fr rt sn := by
    intro fr rt sn
    exact Iff.rfl
  have hsnap : ∀ p ∈ s.snap, ∃ k sl, PathTo p.1 _ none k sl := fun p hp => by
    obtain ⟨k, sl, a⟩ := h.snapMem p hp
    exact ⟨k, sl, b2 _ _ _ _ a⟩
  unfold HSt.commit HSt.TInv
  simp only []
  cases hn : s.node now r row with
  | none =>
    simp only []
    rw [hcb]
    have hemp : r.inp = [] := insert_last_none.1 hn
    refine TInv.commit_step h hrow b1 b2 hsnap h.snapNd (fun _ _ h => h) (List.Sublist.refl _) (fun _ _ => rfl)
      ((get s.rts r.rid).toList : List Nat) ?_ ?_
    · rw [hd]; simp
    · intro hne
      exact absurd hemp (h.nonempty hne r List.mem_cons_self)
  | some y =>
    obtain ⟨sly, hy⟩ := b3 y hn
    cases hg : get s.rts r.rid with
    | none =>
      simp only []
      rw [hcb]
      refine TInv.commit_step h hrow b1 b2 hsnap h.snapNd (fun _ _ h => h) (List.Sublist.refl _) (fun _ _ => rfl) 0 ?_ (fun _ => rfl)
      rw [hd, hg]; simp
    | some ts =>
      simp only []
      cases hs : get s.snap y with
      | none =>
        simp only []
        rw [hcb]
        refine TInv.commit_step h hrow b1 b2 ?_ ?_ ?_ (List.Sublist.refl _) (fun _ _ => rfl) 0 ?_ (fun _ => rfl)
        · intro p hp
          rcases List.mem_cons.1 hp with rfl | hp
          · exact ⟨_, sly, hy⟩
          · exact hsnap p hp
        · rw [List.map_cons, List.nodup_cons]
          refine ⟨?_, h.snapNd⟩
          rw [List.mem_map]
          rintro ⟨p, hp, e⟩
          exact get_none hs p hp e
        · intro z v hz
          rw [get_cons, if_neg]
          · exact hz
          · rintro rfl
            rw [hs] at hz; cases hz
        · rw [hd, hg]
          simp only [List.map_cons, Bool.false_eq_true, if_false, Option.toList_some]
          rw [← Multiset.cons_coe, ← Multiset.singleton_add, Multiset.coe_singleton]
          abel
      | some old =>
        simp only []
        rw [hcb]
        refine TInv.commit_step h hrow b1 b2 hsnap h.snapNd (fun _ _ h => h) List.filter_sublist ?_ 0 ?_ (fun _ => rfl)
        · intro q hq
          rw [get_pop, if_neg (h.rid_ne hq)]
        · rw [hd, hg]
          simp only [← Multiset.coe_add, Bool.false_eq_true, if_false, Option.toList_some]
          abel

theorem finish_chg {c : Cache} {r : Req} {rest : List Nat} (hi : PyRadix.Inv 1 ⟨c, r.lock.toList ++ rest⟩) (now : Nat) (val : Slots)
    (hl : val.length = r.inp.length) :
    PyRadix.Inv 1 ⟨unlockOpt (PyRadix.insert 1 now c none r.inp val).2 r.lock, rest⟩ ∧
    ∀ y e k s, PathTo y c.tree e k s → PathTo y (unlockOpt (PyRadix.insert 1 now c none r.inp val).2 r.lock).tree e k s := by
  obtain ⟨c1, _⟩ := chg_insert hi now r.inp val hl
  have c3 := chg_unlock r.lock c1.inv
  exact ⟨c3.inv, fun y e k s hp => c3.path _ _ _ _ (c1.path _ _ _ _ hp)⟩

theorem finish_len {s : HSt} {r : Req} {row : Nat} : ((read s.base.table row (total false r)).take r.inp.length).length = r.inp.length := by
  rw [List.length_take, read_length, total]
  simp

theorem tinv_step {s s' : HSt} {lab : HLab} (h : s.TInv maxReqs tracks ne) (hs : HStep s lab s') :
    s'.TInv maxReqs tracks (ne ∧ lab.empty = false) := by
  cases hs with
  | start now rid inp hr => exact TInv.mono (tinv_start h now rid inp hr) (fun ⟨a, b⟩ => ⟨a, by simpa using b⟩)
  | rollback r rest hp hr => exact TInv.mono ((TInv.perm h hp).rollback_step hr) And.left
  | extend r rest row rows xs pool hp hr h1 h2 =>
    have hh := TInv.perm h hp
    rw [rowsAlloc_one h1] at hh
    exact TInv.mono (hh.extend_step hr) And.left
  | noSlots n pool hx => exact TInv.mono h And.left
  | commit now r rest row tok hp hr hd => exact TInv.mono (tinv_commit (TInv.perm h hp) hr hd now tok) And.left
  | decode r rest row x pool tok hp hr hd hx =>
    have hh := TInv.perm h hp
    have hci := hh.cinv
    rw [filterMap_opt] at hci
    refine TInv.mono (ne := ne) ?_ And.left
    show TInv maxReqs tracks ne s.base.cache s.base.rows _ s.free s.rts s.snap
    exact TInv.after_step (r' := { r with out := r.out ++ [tok] }) hh hr rfl rfl rfl hd (by simp) hci (fun _ _ _ _ hp => hp) hh.snapMem hh.snapNd
      (fun _ _ h => h) (List.Sublist.refl _) (fun _ _ => rfl) (extra := 0) (by rw [hd]; simp) (fun _ => rfl)
  | finish now r rest row hp hr hd =>
    have hh := TInv.perm h hp
    have hci := hh.cinv
    rw [filterMap_opt] at hci
    obtain ⟨a, b⟩ := finish_chg hci now ((read s.base.table row (total false r)).take r.inp.length) finish_len
    exact TInv.mono (hh.finish_step hr hd a b) And.left
  | evict target freed c' l he hl => exact TInv.mono (TInv.evict_step h he hl) And.left

theorem tinv_reach {size : Nat} {b : Bool} {labs : List HLab} {s : HSt} (h : HReach size maxReqs tracks b labs s) :
    s.TInv maxReqs tracks (∀ l ∈ labs, l.empty = false) := by
  induction h with
  | init => exact tinv_init _ _
  | step _ hs ih =>
    refine TInv.mono (tinv_step ih hs) ?_
    intro hh
    exact ⟨fun l hl => hh l (List.mem_cons_of_mem _ hl), hh _ List.mem_cons_self⟩

end Verif.Hybrid
