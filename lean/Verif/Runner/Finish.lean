import Verif.Runner.Steps
namespace Verif.Runner
open Verif.PyRadix Verif.PyPool

theorem rinv_commit {m : Mode} {size maxReqs : Nat} {s : St} (h : RInv m size maxReqs s) {r : Req} {rest : List Req} (hs : s.reqs = r :: rest)
    {row : Nat} (hr : r.row = some row) (hd : r.done = false) (now : Nat) (tok : Int) : RInv m size maxReqs (s.commit m now r rest row tok) := by
  have hrm : r ∈ s.reqs := by rw [hs]; exact List.mem_cons_self
  have hb := h.reqs r hrm
  have hin : ∀ q ∈ rest, q ∈ s.reqs := fun q hq => by rw [hs]; exact List.mem_cons_of_mem _ hq
  have hne : ∀ q ∈ rest, ∀ row', q.row = some row' → row' ≠ row := fun q hq row' hq' => row_ne h hs hr hq hq'
  have hf : r.filled = r.inp := by simp [Req.filled, hd]
  rw [St.commit]
  by_cases hm : m = .off
  · rw [if_pos hm]
    have hp0 : r.prot = 0 := (hb.off hm).1
    have hf' : ({ r with out := [tok], prot := 0, done := true } : Req).filled = r.inp := by simp [Req.filled]
    refine ⟨h.page, h.group, ?_, ?_, ?_, ?_, h.kvTree, ?_⟩
    · have := h.cinv
      rw [hs] at this
      exact this
    · show _ + _ + _ + ((List.flatMap (own s.table) (_ :: rest) : List Nat) : Multiset Nat) = _
      rw [← h.all, hs, List.flatMap_cons, List.flatMap_cons]
      have : own s.table { r with out := [tok], prot := 0, done := true } = own s.table r := by
        rw [own, own, hf', hf, hp0]
      rw [this]
    · have := h.rows
      rw [hs] at this
      exact this
    · intro q hq
      rcases List.mem_cons.1 hq with rfl | hq
      · exact ⟨Nat.zero_le _, fun hh => (by cases hh), fun _ => (by simp), fun hh => (by rw [hr] at hh; cases hh), fun _ => ⟨rfl, (hb.off hm).2⟩, .inl rfl⟩
      · exact h.reqs q (hin q hq)
    · intro q hq row' hq' i hi
      rcases List.mem_cons.1 hq with rfl | hq
      · rw [hf'] at hi ⊢
        have := h.kvReq r hrm row' hq' i (by rw [hf]; exact hi)
        rwa [hf] at this
      · exact h.kvReq q (hin q hq) row' hq' i hi
  · rw [if_neg hm]
    rcases hi : PyRadix.insert 1 now s.cache none r.inp (read s.table row r.inp.length) with ⟨⟨n, o⟩, c1⟩
    obtain ⟨old, sp, hpn, hnk, hkv, hcb⟩ := ins_req h hrm hr now r.inp.length (n := n) (o := o) (c' := c1) hb.le (by rw [hf])
      (by rw [hf, List.take_length]; exact hi)
    rw [hf, List.take_length] at sp
    have mp := match_spec sp.inv now r.inp
    rcases hmt : matchPrefix 1 now c1 none r.inp with ⟨⟨new, last⟩, c2⟩
    rw [hmt] at mp
    simp only [] at mp
    simp only [hi, hmt]
    have hcn : Cached 1 c1.tree none r.inp (old ++ (read s.table row r.inp.length).drop n) := by
      refine (sp.new _ _ _).2 (.inr ⟨rfl, r.inp.length, le_refl _, by rw [List.take_length], ?_⟩)
      rw [List.take_of_length_le]
      rw [List.length_append, sp.len, List.length_drop, read_length]; omega
    have hnl : new.length = r.inp.length :=
      Nat.le_antisymm mp.le (mp.max r.inp.length _ (le_refl _) (by rw [List.take_length]; exact hcn))
    have hcnew : Cached 1 c1.tree none r.inp new := by
      have := mp.cached
      rwa [hnl, List.take_length] at this
    have hbase : read s.table row r.prot = new.take r.prot := by
      have h1 : Cached 1 c1.tree none (r.inp.take r.prot) (read s.table row r.prot) := (sp.new _ _ _).2 (.inl hcb)
      have h2 := cached_take sp.inv.wf r.prot hcnew hb.le (Nat.one_dvd _)
      exact cached_unique sp.inv.wf h1 h2
    have hread : read (if r.prot < new.length then fill s.table row r.prot (new.drop r.prot) else s.table) row r.inp.length = new := by
      by_cases hlt : r.prot < new.length
      · rw [if_pos hlt]
        have h1 := read_fill s.table row r.prot (new.drop r.prot)
        have h2 : r.prot + (new.drop r.prot).length = r.inp.length := by rw [List.length_drop]; omega
        rw [h2, hbase, List.take_append_drop] at h1
        exact h1
      · rw [if_neg hlt]
        have : r.prot = r.inp.length := by have := hb.le; omega
        rw [← this, hbase, List.take_of_length_le (by omega)]
    have hother : ∀ q ∈ rest, ∀ row', q.row = some row' →
        (if r.prot < new.length then fill s.table row r.prot (new.drop r.prot) else s.table) row' = s.table row' := by
      intro q hq row' hq'
      split
      · exact fill_other (hne q hq row' hq')
      · rfl
    obtain ⟨f1, f2, f3⟩ := free_dup h.page h.group (read s.table row r.inp.length) hpn
    have s1 := same_unlock c2 r.lock
    have s2 := same_lock (unlockOpt c2 r.lock) (if 0 < new.length then last else none)
    have hf' : ({ r with out := [tok], prot := new.length, lock := if 0 < new.length then last else none, done := true } : Req).filled = r.inp := by
      simp [Req.filled]
    have hpath : ∀ y e k sl, PathTo y s.cache.tree e k sl → PathTo y (lockOpt (unlockOpt c2 r.lock) (if 0 < new.length then last else none)).tree e k sl :=
      fun y e k sl hp => (s2.path _ _ _ _).2 ((s1.path _ _ _ _).2 (mp.path _ _ _ _ (sp.path _ _ _ _ hp)))
    have hkv' : ∀ k sl, Cached 1 (lockOpt (unlockOpt c2 r.lock) (if 0 < new.length then last else none)).tree none k sl → ∀ i x, sl[i]? = some x →
        s.kv x = k.take (i + 1) := fun k sl hc =>
      hkv k sl ((mp.same _ _ _).1 ((s1.cached _ _ _).1 ((s2.cached _ _ _).1 hc)))
    refine ⟨f1, f2, ?_, ?_, ?_, ?_, hkv', ?_⟩
    · show PyRadix.Inv 1 ⟨_, List.filterMap _ (_ :: rest)⟩
      rw [filterMap_opt]
      have hi2 := mp.inv
      rw [hs, filterMap_opt] at hi2
      refine inv_lockOpt (inv_unlockOpt r.lock hi2) _ ?_
      intro y hy
      split at hy
      · exact pathTo_mem ((s1.path _ _ _ _).2 (mp.hlast y hy))
      · cases hy
    · show _ + _ + (slots (lockOpt (unlockOpt c2 r.lock) _).tree : Multiset Nat) + (List.flatMap (own _) (_ :: rest) : List Nat) = _
      rw [f3, s2.slots, s1.slots, Multiset.coe_eq_coe.2 mp.slots, Multiset.coe_eq_coe.2 sp.slots, ← h.all, hs, List.flatMap_cons, List.flatMap_cons]
      rw [flat_congr (l := rest) (g := own s.table) (fun q hq => by
        rw [own, own]
        cases hq' : q.row with
        | none => rfl
        | some row' => simp only [read, hother q hq row' hq'])]
      have e1 : own (if r.prot < new.length then fill s.table row r.prot (new.drop r.prot) else s.table)
          { r with out := [tok], prot := new.length, lock := if 0 < new.length then last else none, done := true } = [] := by
        rw [own, hf']
        simp only [hr]
        rw [List.drop_eq_nil_of_le (by rw [read_length]; omega)]
      have e2 : own s.table r = ((read s.table row r.inp.length).take n).drop r.prot ++ (read s.table row r.inp.length).drop n := by
        rw [own, hf, hr]
        exact drop_split hpn
      rw [e1, e2]
      simp only [← Multiset.coe_add, List.nil_append]
      abel
    · have := h.rows
      rw [hs] at this
      exact this
    · intro q hq
      rcases List.mem_cons.1 hq with rfl | hq
      · refine ⟨le_of_eq hnl, fun hh => (by cases hh), fun _ => (by simp), fun hh => (by rw [hr] at hh; cases hh), fun ho => absurd ho hm, ?_⟩
        by_cases hz : 0 < new.length
        · right
          have hly : ∃ y, last = some y := by
            rcases ho : last with _ | y
            · rw [mp.root ho] at hz; simp at hz
            · exact ⟨y, rfl⟩
          obtain ⟨y, hl⟩ := hly
          refine ⟨y, r.inp.take new.length, new, ?_, (s2.path _ _ _ _).2 ((s1.path _ _ _ _).2 (mp.hlast y hl)), ?_, ?_, ?_⟩
          · show (if 0 < new.length then last else none) = some y
            rw [if_pos hz, hl]
          · show new.length ≤ _
            rw [List.length_take]; omega
          · show (r.inp.take new.length).take new.length = r.inp.take new.length
            rw [List.take_take, Nat.min_self]
          · show new.take new.length = base _ _
            rw [base]
            simp only [hr]
            rw [List.take_length]
            conv_rhs => rw [show read _ row new.length = read _ row r.inp.length from by rw [hnl]]
            rw [hnl] at hread
            exact hread.symm
        · left; show new.length = 0; omega
      · refine rbase_frame (h.reqs q (hin q hq)) (fun y k sl _ hp => hpath y none k sl hp) ?_
        rw [base, base]
        cases hq' : q.row with
        | none => rfl
        | some row' => simp only [read, hother q hq row' hq']
    · intro q hq row' hq' i hi'
      rcases List.mem_cons.1 hq with rfl | hq
      · have hq'' : row' = row := by
          have : some row' = some row := by rw [← hr, ← hq']
          exact Option.some.inj this
        subst hq''
        rw [hf'] at hi' ⊢
        have hget := read_get (if r.prot < new.length then fill s.table row' r.prot (new.drop r.prot) else s.table) row' r.inp.length i hi'
        rw [hread] at hget
        exact hkv r.inp new hcnew i _ hget
      · show s.kv ((if r.prot < new.length then fill s.table row r.prot (new.drop r.prot) else s.table) row' i) = _
        rw [hother q hq row' hq']
        exact h.kvReq q (hin q hq) row' hq' i hi'

theorem rows_back {rows : Rows} {row : Nat} {rest : List Nat} : ((rowsFree rows row : List Nat) : Multiset Nat) + rest = (rows : Multiset Nat) + (row :: rest : List Nat) := by
  rw [rowsFree, ← Multiset.coe_add]
  simp [add_assoc]

theorem rinv_finish {m : Mode} {size maxReqs : Nat} {s : St} (h : RInv m size maxReqs s) {r : Req} {rest : List Req} (hs : s.reqs = r :: rest)
    {row : Nat} (hr : r.row = some row) (hd : r.done = true) (now : Nat) : RInv m size maxReqs (s.finish true m now r rest row) := by
  have hrm : r ∈ s.reqs := by rw [hs]; exact List.mem_cons_self
  have hb := h.reqs r hrm
  have hin : ∀ q ∈ rest, q ∈ s.reqs := fun q hq => by rw [hs]; exact List.mem_cons_of_mem _ hq
  have hfl : r.filled.length = total true r := by rw [filled_length hb.out, hd]; rfl
  have hfe : r.filled = (r.inp ++ r.out).take (total true r) := by rw [Req.filled, hd]; rfl
  have hge := filled_ge hb.out hb.out'
  have hrows : ((rowsFree s.rows row : List Nat) : Multiset Nat) + (rest.filterMap (·.row) : List Nat) = (List.range maxReqs : List Nat) := by
    have := h.rows
    rw [hs, filterMap_opt, hr] at this
    rw [rows_back, ← this]; rfl
  have hown : own s.table r = (read s.table row (total true r)).drop r.prot := by rw [own, hr, hfl]
  have hcinv := h.cinv
  have hall := h.all
  rw [hs, List.flatMap_cons, hown] at hall
  unfold St.finish
  cases m with
  | off =>
    have hp0 : r.prot = 0 := (hb.off rfl).1
    obtain ⟨f1, f2, f3⟩ := pool_free h.page h.group (read s.table row (total true r))
    have hi2 := h.cinv
    rw [hs, filterMap_opt] at hi2
    refine ⟨f1, f2, ?_, ?_, hrows, fun q hq => h.reqs q (hin q hq), h.kvTree, fun q hq => h.kvReq q (hin q hq)⟩
    · rw [(hb.off rfl).2] at hi2
      exact hi2
    · show _ + _ + (slots s.cache.tree : Multiset Nat) + (List.flatMap (own s.table) rest : List Nat) = _
      rw [f3, ← hall, hp0, List.drop_zero, ← Multiset.coe_add]
      abel
  | radix =>
    simp only []
    rcases hi : PyRadix.insert 1 now s.cache none ((r.inp ++ r.out).take (total true r)) (read s.table row (total true r)) with ⟨⟨n, o⟩, c1⟩
    obtain ⟨old, sp, hpn, hnk, hkv, _⟩ := ins_req h hrm hr now (total true r) (n := n) (o := o) (c' := c1) (by rw [← hfl]; have := hb.le; omega) (by rw [hfl])
      (by rw [hfe, List.take_take, Nat.min_self]; exact hi)
    obtain ⟨f1, f2, f3⟩ := free_dup h.page h.group (read s.table row (total true r)) hpn
    have sm := same_unlock c1 r.lock
    simp only []
    refine ⟨f1, f2, ?_, ?_, hrows, ?_, ?_, fun q hq => h.kvReq q (hin q hq)⟩
    · have hi2 := sp.inv
      rw [hs, filterMap_opt] at hi2
      exact inv_unlockOpt r.lock hi2
    · show _ + _ + (slots (unlockOpt c1 r.lock).tree : Multiset Nat) + (List.flatMap (own s.table) rest : List Nat) = _
      have e1 := drop_split (val := read s.table row (total true r)) hpn
      rw [f3, sm.slots, Multiset.coe_eq_coe.2 sp.slots, ← hall, e1]
      simp only [← Multiset.coe_add]
      abel
    · intro q hq
      exact rbase_frame (h.reqs q (hin q hq)) (fun y k sl _ hp => (sm.path _ _ _ _).2 (sp.path _ _ _ _ hp)) rfl
    · intro k sl hc
      exact hkv k sl ((sm.cached _ _ _).1 hc)
  | hybrid =>
    simp only []
    have hle : r.inp.length ≤ total true r := by rw [← hfl]; exact hge
    rw [read_take _ _ _ _ hle]
    rcases hi : PyRadix.insert 1 now s.cache none r.inp (read s.table row r.inp.length) with ⟨⟨n, o⟩, c1⟩
    obtain ⟨old, sp, hpn, hnk, hkv, _⟩ := ins_req h hrm hr now r.inp.length (n := n) (o := o) (c' := c1) hb.le hge
      (by rw [filled_inp hb.out' (le_refl _), List.take_length]; exact hi)
    obtain ⟨f1, f2, f3⟩ := free_dup h.page h.group (read s.table row r.inp.length) hpn
    obtain ⟨g1, g2, g3⟩ := pool_free f1 f2 ((read s.table row (total true r)).drop r.inp.length)
    have sm := same_unlock c1 r.lock
    simp only []
    refine ⟨g1, g2, ?_, ?_, hrows, ?_, ?_, fun q hq => h.kvReq q (hin q hq)⟩
    · have hi2 := sp.inv
      rw [hs, filterMap_opt] at hi2
      exact inv_unlockOpt r.lock hi2
    · show _ + _ + (slots (unlockOpt c1 r.lock).tree : Multiset Nat) + (List.flatMap (own s.table) rest : List Nat) = _
      have e1 : (read s.table row (total true r)).drop r.prot =
          ((read s.table row r.inp.length).take n).drop r.prot ++ ((read s.table row r.inp.length).drop n ++ (read s.table row (total true r)).drop r.inp.length) := by
        rw [← List.append_assoc, ← drop_split hpn, drop_split hb.le, read_take _ _ _ _ hle]
      rw [g3, f3, sm.slots, Multiset.coe_eq_coe.2 sp.slots, ← hall, e1]
      simp only [← Multiset.coe_add]
      abel
    · intro q hq
      exact rbase_frame (h.reqs q (hin q hq)) (fun y k sl _ hp => (sm.path _ _ _ _).2 (sp.path _ _ _ _ hp)) rfl
    · intro k sl hc
      exact hkv k sl ((sm.cached _ _ _).1 hc)

end Verif.Runner
