import Verif.Hybrid.Steps
namespace Verif.Hybrid
open Verif.PyRadix hiding St Step Reach
open Verif.PyPool hiding St Step Reach init
open Verif.Runner

/-- The path to a node is unique. -/
theorem pathTo_unique {y : Nat} : ∀ {f : Forest}, (ids f).Nodup → ∀ {e e' : Ext} {k k' : Key} {s s' : Slots}, PathTo y f e k s → PathTo y f e' k' s' → k = k'
  | .nil, _, _, _, _, _, _, _, h, _ => h.elim
  | .node i key x v l t kids rest, hn, e, e', k, k', s, s', h, h' => by
    have hnp := hn
    rw [ids] at hnp
    obtain ⟨n1, n2⟩ := List.nodup_cons.1 hnp
    obtain ⟨n3, n4, n5⟩ := List.nodup_append.1 n2
    rw [PathTo] at h h'
    have nk : ∀ {e k s}, PathTo i kids e k s → False := fun hp => n1 (List.mem_append_left _ (pathTo_mem hp))
    have nr : ∀ {e k s}, PathTo i rest e k s → False := fun hp => n1 (List.mem_append_right _ (pathTo_mem hp))
    have nb : ∀ {e k s e' k' s'}, PathTo y kids e k s → PathTo y rest e' k' s' → False := fun hp hq => n5 y (pathTo_mem hp) y (pathTo_mem hq) rfl
    rcases h with h | ⟨_, ⟨rfl, rfl, _⟩ | ⟨k1, s1, rfl, _, h⟩⟩ <;> rcases h' with h' | ⟨_, ⟨e1, e2, _⟩ | ⟨k2, s2, rfl, _, h'⟩⟩
    · exact pathTo_unique n4 h h'
    · subst e1; exact (nr h).elim
    · exact (nb h' h).elim
    · exact (nr h').elim
    · exact e2.symm
    · exact (nk h').elim
    · exact (nb h h').elim
    · subst e1; exact (nk h).elim
    · rw [pathTo_unique n3 h h']

/-- What the recurrent states hold. -/
structure CInv (f : Forest) (reqs : List Req) (gdn : Nat → List Int) (rts snap : List (Nat × Nat)) : Prop where
  hit : ∀ r ∈ reqs, r.row = none → 0 < r.prot → Hit f snap r r.prot
  snapv : ∀ p ∈ snap, ∃ k sl, PathTo p.1 f none k sl ∧ gdn p.2 = k
  reqv : ∀ r ∈ reqs, ∀ row, r.row = some row → gdn row = r.filled
  rtsv : ∀ r ∈ reqs, r.row ≠ none → r.done = false → ∀ ts, get rts r.rid = some ts → gdn ts = r.inp

def HSt.CInv (s : HSt) : Prop := Hybrid.CInv s.base.cache.tree s.base.reqs s.gdn s.rts s.snap

variable {maxReqs tracks : Nat} {ne : Prop}

section
variable {c c' : Cache} {rows : Rows} {reqs : List Req} {free : List Nat} {rts snap : List (Nat × Nat)} {gdn : Nat → List Int} {f f' : Forest}

theorem CInv.perm (h : CInv f reqs gdn rts snap) {l : List Req} (hp : reqs.Perm l) : CInv f l gdn rts snap :=
  ⟨fun r hr => h.hit r (hp.mem_iff.2 hr), h.snapv, fun r hr => h.reqv r (hp.mem_iff.2 hr), fun r hr => h.rtsv r (hp.mem_iff.2 hr)⟩

theorem TInv.row_lt (h : TInv maxReqs tracks ne c rows reqs free rts snap) {r : Req} (hr : r ∈ reqs) {row : Nat} (hrow : r.row = some row) : row < maxReqs := by
  have : row ∈ (rows : Multiset Nat) + reqs.filterMap (·.row) := by
    rw [Multiset.mem_add]
    exact .inr (Multiset.mem_coe.2 (List.mem_filterMap.2 ⟨r, hr, hrow⟩))
  rw [h.rows] at this
  simpa using this

theorem TInv.track_ge (h : TInv maxReqs tracks ne c rows reqs free rts snap) {t : Nat} (ht : t ∈ free ∨ t ∈ snap.map (·.2) ∨ t ∈ pend rts reqs) : maxReqs < t := by
  obtain ⟨lost, e, _⟩ := h.tracks
  have : t ∈ (free : Multiset Nat) + (snap.map (·.2) : List Nat) + (pend rts reqs : List Nat) + lost := by
    simp only [Multiset.mem_add, Multiset.mem_coe]
    tauto
  rw [e, Multiset.mem_coe, List.mem_range'_1] at this
  omega

theorem TInv.track_disj (h : TInv maxReqs tracks ne c rows reqs free rts snap) :
    (free ++ (snap.map (·.2) ++ pend rts reqs)).Nodup := by
  obtain ⟨lost, e, _⟩ := h.tracks
  have hn : ((free : Multiset Nat) + (snap.map (·.2) : List Nat) + (pend rts reqs : List Nat)).Nodup := by
    refine Multiset.nodup_of_le ?_ (Multiset.coe_nodup.2 (List.nodup_range' (s := maxReqs + 1) (n := tracks)))
    rw [← e]
    exact Multiset.le_add_right _ _
  rw [← Multiset.coe_nodup, ← Multiset.coe_add, ← Multiset.coe_add, ← add_assoc]
  exact hn

theorem mem_pend {rts : List (Nat × Nat)} {reqs : List Req} {r : Req} (hr : r ∈ reqs) (hd : r.done = false) {ts : Nat} (h : get rts r.rid = some ts) :
    ts ∈ pend rts reqs :=
  List.mem_filterMap.2 ⟨r, hr, by rw [hd]; exact h⟩

theorem mem_snap2 {p : Nat × Nat} (hp : p ∈ snap) : p.2 ∈ snap.map (·.2) := List.mem_map.2 ⟨p, hp, rfl⟩

theorem CInv.path (h : CInv f reqs gdn rts snap) (hp : ∀ y e k s, PathTo y f e k s → PathTo y f' e k s) : CInv f' reqs gdn rts snap :=
  ⟨fun r hr h1 h2 => by
      obtain ⟨y, sl, ts, a, b, d⟩ := h.hit r hr h1 h2
      exact ⟨y, sl, ts, a, hp _ _ _ _ b, d⟩,
    fun p hm => by
      obtain ⟨k, sl, a, b⟩ := h.snapv p hm
      exact ⟨k, sl, hp _ _ _ _ a, b⟩, h.reqv, h.rtsv⟩

/-- A request is dropped. -/
theorem CInv.drop {r : Req} {rest : List Req} (h : CInv f (r :: rest) gdn rts snap) : CInv f rest gdn rts snap :=
  ⟨fun q hq => h.hit q (List.mem_cons_of_mem _ hq), h.snapv, fun q hq => h.reqv q (List.mem_cons_of_mem _ hq),
    fun q hq => h.rtsv q (List.mem_cons_of_mem _ hq)⟩

theorem restore_row (ht : (ids f).Nodup) {r : Req} (hsv : ∀ p ∈ snap, ∃ k sl, PathTo p.1 f none k sl ∧ gdn p.2 = k) {M : Nat}
    (hh : 0 < r.prot → Hit f snap r M) (row : Nat) : restore gdn snap r row row = if 0 < r.prot then r.inp.take M else [] := by
  by_cases hpos : 0 < r.prot
  · obtain ⟨y, sl, ts, a, b, d⟩ := hh hpos
    rw [restore, a]
    simp only [if_pos hpos, d, copyStates, Function.update_self]
    obtain ⟨k, sl', p1, p2⟩ := hsv _ (get_mem d)
    rw [p2]
    exact pathTo_unique ht p1 b
  · rw [restore, if_neg hpos]
    cases r.lock with
    | none => simp [resetStates]
    | some y => simp [if_neg hpos, resetStates]

theorem restore_other {r : Req} {row x : Nat} (h : x ≠ row) : restore gdn snap r row x = gdn x := by
  rw [restore]
  cases r.lock with
  | none => exact Function.update_of_ne h _ _
  | some y =>
    simp only []
    split
    · cases get snap y with
      | none => exact Function.update_of_ne h _ _
      | some ts => exact Function.update_of_ne h _ _
    · exact Function.update_of_ne h _ _

theorem filled_of_not_done {r : Req} (h : r.done = false) : r.filled = r.inp := by simp [Req.filled, h]

theorem CInv.extend_step {r : Req} {rest : List Req} {row : Nat} {rows' : Rows} (ht : TInv maxReqs tracks ne c (row :: rows') (r :: rest) free rts snap)
    (h : CInv c.tree (r :: rest) gdn rts snap) (hn : r.row = none) :
    CInv c.tree ({ r with row := some row } :: rest)
      (match (allocTrack free).1 with
        | some ts => copyStates (forward (restore gdn snap r row) row (r.inp.drop r.idx.length)) row ts
        | none => forward (restore gdn snap r row) row (r.inp.drop r.idx.length))
      (match (allocTrack free).1 with | some ts => (r.rid, ts) :: pop rts r.rid | none => rts) snap := by
  have mem : ∀ {q}, q ∈ rest → q ∈ r :: rest := fun hq => List.mem_cons_of_mem _ hq
  obtain ⟨hd, hidx⟩ := ht.start r List.mem_cons_self hn
  set g := forward (restore gdn snap r row) row (r.inp.drop r.idx.length) with hg
  have grow : g row = r.inp := by
    rw [hg, forward, Function.update_self, restore_row ht.cinv.nodup h.snapv (h.hit r List.mem_cons_self hn), hidx]
    split
    · exact List.take_append_drop _ _
    · rename_i h0
      have : r.prot = 0 := by omega
      rw [this]; simp
  have gother : ∀ x, x ≠ row → g x = gdn x := by
    intro x hx
    rw [hg, forward, Function.update_of_ne hx, restore_other hx]
  have hrow : row < maxReqs := by
    have : row ∈ ((row :: rows' : List Nat) : Multiset Nat) + (r :: rest).filterMap (·.row) := by simp
    rw [ht.rows] at this
    simpa using this
  have hrest : ∀ q ∈ rest, ∀ row', q.row = some row' → row' ≠ row := by
    intro q hq row' hq' he
    subst he
    have hnd : ((row' :: rows') ++ (r :: rest).filterMap (·.row)).Nodup := by
      rw [← Multiset.coe_nodup, ← Multiset.coe_add, ht.rows]
      exact Multiset.coe_nodup.2 List.nodup_range
    exact (List.nodup_append.1 hnd).2.2 row' List.mem_cons_self row' (List.mem_filterMap.2 ⟨q, mem hq, hq'⟩) rfl
  have hdis := ht.track_disj
  have hlast : ∀ ts, free.getLast? = some ts → ts ∈ free := fun ts h => List.mem_of_getLast? h
  have final : ∀ (o : Option Nat), (∀ ts, o = some ts → ts ∈ free) →
      CInv c.tree ({ r with row := some row } :: rest) (match o with | some ts => copyStates g row ts | none => g)
        (match o with | some ts => (r.rid, ts) :: pop rts r.rid | none => rts) snap := by
    intro o ho
    have hts : ∀ x, x ∉ free → (match o with | some ts => copyStates g row ts | none => g) x = g x := by
      intro x hx
      cases o with
      | none => rfl
      | some ts =>
        refine Function.update_of_ne ?_ _ _
        rintro rfl
        exact hx (ho _ rfl)
    have hrowfree : ∀ x, x < maxReqs → x ∉ free := by
      intro x hx hf
      have := ht.track_ge (.inl hf)
      omega
    refine ⟨?_, ?_, ?_, ?_⟩
    · intro q hq
      rcases List.mem_cons.1 hq with rfl | hq
      · intro hh; cases hh
      · exact h.hit q (mem hq)
    · intro p hp
      obtain ⟨k, sl, a, b⟩ := h.snapv p hp
      refine ⟨k, sl, a, ?_⟩
      have hge := ht.track_ge (.inr (.inl (mem_snap2 hp)))
      rw [hts p.2 ?_, gother _ (by omega), b]
      intro hf
      exact (List.nodup_append.1 hdis).2.2 _ hf _ (List.mem_append_left _ (mem_snap2 hp)) rfl
    · intro q hq row' hq'
      rcases List.mem_cons.1 hq with rfl | hq
      · obtain rfl := Option.some.inj hq'
        rw [hts _ (hrowfree _ hrow), grow]
        exact (filled_of_not_done (r := { r with row := some row }) hd).symm
      · rw [hts _ (hrowfree _ (ht.row_lt (mem hq) hq')), gother _ (hrest q hq row' hq')]
        exact h.reqv q (mem hq) row' hq'
    · intro q hq hrn hqd ts hget
      rcases List.mem_cons.1 hq with rfl | hq
      · cases o with
        | none =>
          have hno : get rts r.rid = none := ht.rts_none List.mem_cons_self hn
          rw [show get rts r.rid = some ts from hget] at hno
          cases hno
        | some ts' =>
          simp only [get_cons, if_pos] at hget
          obtain rfl := Option.some.inj hget
          simp only [copyStates, Function.update_self]
          exact grow
      · have hget' : get rts q.rid = some ts := by
          cases o with
          | none => exact hget
          | some ts' =>
            simp only [] at hget
            rw [get_cons, if_neg (fun e => ht.rid_ne hq e.symm), get_pop, if_neg (ht.rid_ne hq)] at hget
            exact hget
        have hpm := mem_pend (mem hq) hqd hget'
        have hge := ht.track_ge (.inr (.inr hpm))
        rw [hts ts ?_, gother _ (by omega)]
        · exact h.rtsv q (mem hq) hrn hqd ts hget'
        · intro hf
          exact (List.nodup_append.1 hdis).2.2 _ hf _ (List.mem_append_right _ hpm) rfl
  exact final _ hlast

/-- A request changes its fields after prefill, states and rows stay. -/
theorem CInv.after_step {r r' : Req} {rest : List Req} {row : Nat} (h : CInv f (r :: rest) gdn rts snap) (hrow : r.row = some row) (h3 : r'.row = r.row)
    (h4 : r'.done = true) (h5 : gdn row = r'.filled) (hp : ∀ y e k s, PathTo y f e k s → PathTo y f' e k s) {rts' snap' : List (Nat × Nat)}
    (hs1 : ∀ p ∈ snap', ∃ k sl, PathTo p.1 f' none k sl ∧ gdn p.2 = k) (hs3 : ∀ y v, get snap y = some v → get snap' y = some v)
    (hr2 : ∀ q ∈ rest, get rts' q.rid = get rts q.rid) : CInv f' (r' :: rest) gdn rts' snap' := by
  have mem : ∀ {q}, q ∈ rest → q ∈ r :: rest := fun hq => List.mem_cons_of_mem _ hq
  refine ⟨?_, hs1, ?_, ?_⟩
  · intro q hq
    rcases List.mem_cons.1 hq with rfl | hq
    · intro hh; rw [h3, hrow] at hh; cases hh
    · intro e1 e2
      obtain ⟨y, sl, ts, a, b, d⟩ := h.hit q (mem hq) e1 e2
      exact ⟨y, sl, ts, a, hp _ _ _ _ b, hs3 _ _ d⟩
  · intro q hq row' hq'
    rcases List.mem_cons.1 hq with rfl | hq
    · rw [h3, hrow] at hq'
      obtain rfl := Option.some.inj hq'
      exact h5
    · exact h.reqv q (mem hq) row' hq'
  · intro q hq h1 h2 ts hts
    rcases List.mem_cons.1 hq with rfl | hq
    · rw [h4] at h2; cases h2
    · rw [hr2 q hq] at hts
      exact h.rtsv q (mem hq) h1 h2 ts hts
end

theorem cinv_commit {s : HSt} {r : Req} {rest : List Req} (ht : TInv maxReqs tracks ne s.base.cache s.base.rows (r :: rest) s.free s.rts s.snap)
    (h : CInv s.base.cache.tree (r :: rest) s.gdn s.rts s.snap) {row : Nat} (hrow : r.row = some row) (hd : r.done = false) (now : Nat) (tok : Int) :
    (s.commit now r rest row tok).CInv := by
  have hci := ht.cinv
  rw [filterMap_opt] at hci
  obtain ⟨_, b2, b3⟩ := commit_chg hci now (read s.base.table row r.inp.length) (read_length _ _ _)
  have hgr : ∀ p lk, s.gdn row = Req.filled { r with out := [tok], prot := p, lock := lk, done := true } := by
    intro p lk
    rw [h.reqv r List.mem_cons_self row hrow, filled_of_not_done hd, Req.filled]
    simp
  have hsnap : ∀ p ∈ s.snap, ∃ k sl, PathTo p.1 _ none k sl ∧ s.gdn p.2 = k := fun p hp => by
    obtain ⟨k, sl, a, b⟩ := h.snapv p hp
    exact ⟨k, sl, b2 _ _ _ _ a, b⟩
  have nochange : CInv (s.base.commit .hybrid now r rest row tok).cache.tree (s.base.commit .hybrid now r rest row tok).reqs s.gdn s.rts s.snap := by
    refine CInv.after_step (r' := { r with out := [tok], prot := _, lock := _, done := true }) h hrow rfl rfl (hgr _ _) b2 hsnap (fun _ _ h => h) (fun _ _ => rfl)
  unfold HSt.commit HSt.CInv
  simp only []
  cases hn : s.node now r row with
  | none => exact nochange
  | some y =>
    obtain ⟨sly, hy⟩ := b3 y hn
    cases hg : get s.rts r.rid with
    | none => exact nochange
    | some ts =>
      simp only []
      cases hs : get s.snap y with
      | none =>
        refine CInv.after_step (r' := { r with out := [tok], prot := _, lock := _, done := true }) h hrow rfl rfl (hgr _ _) b2 ?_ ?_ (fun _ _ => rfl)
        · intro p hp
          rcases List.mem_cons.1 hp with rfl | hp
          · exact ⟨_, sly, hy, h.rtsv r List.mem_cons_self (by simp [hrow]) hd ts hg⟩
          · exact hsnap p hp
        · intro z v hz
          rw [get_cons, if_neg]
          · exact hz
          · rintro rfl
            rw [hs] at hz; cases hz
      | some old =>
        refine CInv.after_step (r' := { r with out := [tok], prot := _, lock := _, done := true }) h hrow rfl rfl (hgr _ _) b2 hsnap (fun _ _ h => h) ?_
        intro q hq
        show get (pop s.rts r.rid) q.rid = _
        rw [get_pop, if_neg (ht.rid_ne hq)]

theorem cinv_start {s : HSt} (ht : s.TInv maxReqs tracks ne) (h : s.CInv) (now rid : Nat) (inp : Key) (hr : ∀ q ∈ s.base.reqs, q.rid ≠ rid)
    (hcut : s.cuts now inp = false) : (s.start now rid inp).CInv := by
  unfold HSt.start HSt.CInv
  simp only []
  rw [St.start]
  have gen : ∀ (f : Forest) (q : Req), q.row = none → (∀ y e k s', PathTo y s.base.cache.tree e k s' → PathTo y f e k s') →
      (0 < q.prot → Hit f s.snap q q.prot) → CInv f (q :: s.base.reqs) s.gdn s.rts s.snap := by
    intro f q hq hp hh
    have hc := CInv.path h hp
    refine ⟨?_, hc.snapv, ?_, ?_⟩
    · intro q' hq'
      rcases List.mem_cons.1 hq' with rfl | hq'
      · exact fun _ => hh
      · exact hc.hit q' hq'
    · intro q' hq' row hrow
      rcases List.mem_cons.1 hq' with rfl | hq'
      · rw [hq] at hrow; cases hrow
      · exact hc.reqv q' hq' row hrow
    · intro q' hq' h1 h2
      rcases List.mem_cons.1 hq' with rfl | hq'
      · exact absurd hq h1
      · exact hc.rtsv q' hq' h1 h2
  by_cases hc : (Mode.hybrid = Mode.off ∨ inp = [])
  · rw [if_pos hc]
    exact gen _ _ rfl (fun _ _ _ _ hp => hp) (fun h => absurd h (lt_irrefl _))
  · rw [if_neg hc]
    obtain ⟨f1, f2, f3⟩ := start_facts ht.cinv now inp
    have sp := match_spec ht.cinv now inp
    set m := matchPrefix 1 now s.base.cache none inp with hm
    set n := capped inp.length (if s.discards now inp then 0 else m.1.1.length) with hn
    refine gen _ _ rfl ?_ ?_
    · intro y e k s' hp
      exact ((same_lock m.2 _).path y e k s').2 (sp.path y e k s' hp)
    · intro hpos
      replace hpos : 0 < n := hpos
      obtain ⟨hdis, y, sl, ts, a, b, d⟩ := f3 hpos
      have hnn : n = capped inp.length m.1.1.length := by rw [hn, hdis]; simp
      have heq : n = m.1.1.length := by
        simp only [HSt.cuts, hdis] at hcut
        rw [← hm, ← hnn] at hcut
        simp [hpos] at hcut
        omega
      refine ⟨y, sl, ts, ?_, ?_, d⟩
      · show (if 0 < n then m.1.2 else none) = some y
        rw [if_pos hpos]; exact a
      · refine ((same_lock m.2 _).path y _ _ _).2 ?_
        show PathTo y m.2.tree none (inp.take n) sl
        rw [heq]; exact b

theorem cinv_step {s s' : HSt} {lab : HLab} (ht : s.TInv maxReqs tracks ne) (h : s.CInv) (hs : HStep s lab s') (hcut : lab.cut = false) : s'.CInv := by
  cases hs with
  | start now rid inp hr => exact cinv_start ht h now rid inp hr hcut
  | rollback r rest hp hr =>
    refine CInv.path (CInv.perm h hp).drop ?_
    intro y e k s' hpa
    exact ((same_unlock _ _).path y e k s').2 hpa
  | extend r rest row rows xs pool hp hr h1 h2 =>
    have hh := TInv.perm ht hp
    rw [rowsAlloc_one h1] at hh
    exact CInv.extend_step hh (CInv.perm h hp) hr
  | noSlots n pool hx => exact h
  | commit now r rest row tok hp hr hd => exact cinv_commit (TInv.perm ht hp) (CInv.perm h hp) hr hd now tok
  | decode r rest row x pool tok hp hr hd hx =>
    have hh := TInv.perm ht hp
    have hc := CInv.perm h hp
    have hrow := hh.row_lt List.mem_cons_self hr
    set g := forward s.gdn row [(r.inp ++ r.out).getLastD 0] with hg
    have hother : ∀ x, x ≠ row → g x = s.gdn x := fun x hx => Function.update_of_ne hx _ _
    have hc' : CInv s.base.cache.tree rest g s.rts s.snap := by
      refine ⟨hc.drop.hit, ?_, ?_, ?_⟩
      · intro p hpm
        obtain ⟨k, sl, a, b⟩ := hc.snapv p hpm
        have := hh.track_ge (.inr (.inl (mem_snap2 hpm)))
        exact ⟨k, sl, a, by rw [hother _ (by omega), b]⟩
      · intro q hq row' hq'
        have hne : row' ≠ row := by
          rintro rfl
          have hnd : (s.base.rows ++ (r :: rest).filterMap (·.row)).Nodup := by
            rw [← Multiset.coe_nodup, ← Multiset.coe_add, hh.rows]
            exact Multiset.coe_nodup.2 List.nodup_range
          have := (List.nodup_append.1 hnd).2.1
          rw [filterMap_opt, hr] at this
          simp only [Option.toList_some, List.cons_append, List.nil_append, List.nodup_cons] at this
          exact this.1 (List.mem_filterMap.2 ⟨q, hq, hq'⟩)
        rw [hother _ hne]
        exact hc.drop.reqv q hq row' hq'
      · intro q hq h1 h2 ts hts
        have := hh.track_ge (.inr (.inr (mem_pend (List.mem_cons_of_mem _ hq) h2 hts)))
        rw [hother _ (by omega)]
        exact hc.drop.rtsv q hq h1 h2 ts hts
    refine ⟨?_, hc'.snapv, ?_, ?_⟩
    · intro q hq
      rcases List.mem_cons.1 hq with rfl | hq
      · intro hh; rw [show ({ r with out := r.out ++ [tok] } : Req).row = r.row from rfl, hr] at hh; cases hh
      · exact hc'.hit q hq
    · intro q hq row' hq'
      rcases List.mem_cons.1 hq with rfl | hq
      · rw [show ({ r with out := r.out ++ [tok] } : Req).row = r.row from rfl, hr] at hq'
        obtain rfl := Option.some.inj hq'
        show g row = _
        rw [hg, forward, Function.update_self, hc.reqv r List.mem_cons_self row hr, Req.filled, Req.filled]
        have hne := hh.out' r List.mem_cons_self hd
        simp only [hd, if_true]
        have hl : r.inp.length + (r.out ++ [tok]).length - 1 = (r.inp ++ r.out).length := by simp
        rw [hl, ← List.append_assoc, List.take_left]
        have hne' : r.inp ++ r.out ≠ [] := by simp [hne]
        rw [show r.inp.length + r.out.length - 1 = (r.inp ++ r.out).length - 1 by simp, ← List.dropLast_eq_take]
        rw [List.getLastD_eq_getLast?, List.getLast?_eq_some_getLast hne', Option.getD_some, List.dropLast_append_getLast]
      · exact hc'.reqv q hq row' hq'
    · intro q hq h1 h2
      rcases List.mem_cons.1 hq with rfl | hq
      · rw [show ({ r with out := r.out ++ [tok] } : Req).done = r.done from rfl, hd] at h2; cases h2
      · exact hc'.rtsv q hq h1 h2
  | finish now r rest row hp hr hd =>
    have hh := TInv.perm ht hp
    have hci := hh.cinv
    rw [filterMap_opt] at hci
    obtain ⟨_, b⟩ := finish_chg hci now ((read s.base.table row (total false r)).take r.inp.length) finish_len
    have hc := CInv.path (CInv.perm h hp).drop b
    refine ⟨hc.hit, hc.snapv, hc.reqv, ?_⟩
    intro q hq h1 h2 ts hts
    replace hts : get (pop s.rts r.rid) q.rid = some ts := hts
    rw [get_pop, if_neg (hh.rid_ne hq)] at hts
    exact hc.rtsv q hq h1 h2 ts hts
  | evict target freed c' l he hl =>
    have ok := evict_ok ht.cinv he
    have hk := evict_keep ht.cinv he
    refine ⟨?_, ?_, h.reqv, h.rtsv⟩
    · intro r hr h1 h2
      obtain ⟨y, sl, ts, a, b, d⟩ := h.hit r hr h1 h2
      have hy : y ∈ s.base.reqs.filterMap (·.lock) := List.mem_filterMap.2 ⟨r, hr, a⟩
      have hp := ok.path y hy _ _ _ b
      exact ⟨y, sl, ts, a, hp, get_kept d (pathTo_mem hp)⟩
    · intro p hp
      replace hp : p ∈ kept s.snap c'.tree := hp
      rw [kept, List.mem_filter] at hp
      obtain ⟨k, sl, a, b⟩ := h.snapv p hp.1
      exact ⟨k, sl, hk _ _ _ _ (by simpa using hp.2) a, b⟩

theorem cinv_reach {size : Nat} {b : Bool} {labs : List HLab} {s : HSt} (h : HReach size maxReqs tracks b labs s) (hc : ∀ l ∈ labs, l.cut = false) : s.CInv := by
  induction h with
  | init =>
    refine ⟨?_, ?_, ?_, ?_⟩ <;> intro r hr <;> cases hr
  | step hr hs ih => exact cinv_step (tinv_reach hr) (ih fun l hl => hc l (List.mem_cons_of_mem _ hl)) hs (hc _ List.mem_cons_self)

end Verif.Hybrid
