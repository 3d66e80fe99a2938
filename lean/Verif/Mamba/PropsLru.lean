import Verif.Mamba.PropsTree

/-! # C134: the two recency lists -/
namespace Verif.Mamba
open Verif.PyRadix hiding St Step Reach Op Supplied

/-- The pointers determine the list. -/
theorem rep_unique {L : LRU} {l l' : List Nat} (h : Rep L l) (h' : Rep L l') : l = l' := by
  have key : ∀ {l l' : List Nat} {a : Cell}, Linked L a l → Linked L a l' → l = l' := by
    intro l
    induction l with
    | nil =>
      intro l' a h1 h2
      cases l' with
      | nil => rfl
      | cons j l' => have := h1.1.symm.trans h2.1; cases this
    | cons i l ih =>
      intro l' a h1 h2
      cases l' with
      | nil => have := h1.1.symm.trans h2.1; cases this
      | cons j l' =>
        have := h1.1.symm.trans h2.1
        cases this
        rw [ih h1.2.2 h2.2.2]
  exact key h.link h'.link

/-- C134: in every state the list of nodes holds exactly the nodes of the tree, the list of states exactly the nodes with a state, and
only nodes of the tree have one. -/
theorem C134_lists {P : Nat} (hP : 0 < P) {ops : List Op} {s : St} (h : Reach P ops s) :
    ∃ lf lm, Rep s.c.flru lf ∧ lf.Perm (ids s.c.cache.tree) ∧ Rep s.c.mlru lm ∧ (∀ i, i ∈ lm ↔ s.c.mv i ≠ none) ∧
      (∀ i, s.c.mv i ≠ none → i ∈ ids s.c.cache.tree) := by
  have hi := mInv_reach hP h
  obtain ⟨lf, lm, hl⟩ := hi.lists
  exact ⟨lf, lm, hl.full, (List.perm_ext_iff_of_nodup hl.full.nodup hi.inv.nodup).2 hl.fmem, hl.mam, hl.mmem, hl.sub⟩

/-! ### The path of a match -/

/-- The nodes passed, with the number of tokens up to the end of each. -/
def depths : Nat → List (Nat × Slots) → List (Nat × Nat)
  | _, [] => []
  | m, (i, v) :: hits => (i, m + v.length) :: depths (m + v.length) hits

theorem depths_fst : ∀ (m : Nat) (hits : List (Nat × Slots)), (depths m hits).map (·.1) = hits.map (·.1)
  | _, [] => rfl
  | m, (i, v) :: hits => by simp only [depths, List.map_cons, depths_fst]

theorem depths_shift : ∀ (m d : Nat) (hits : List (Nat × Slots)) (i n : Nat), (i, n) ∈ depths (m + d) hits ↔ ∃ n', n = m + n' ∧ (i, n') ∈ depths d hits
  | _, _, [], i, n => by simp [depths]
  | m, d, (j, v) :: hits, i, n => by
    simp only [depths, List.mem_cons, Prod.mk.injEq]
    rw [Nat.add_assoc, depths_shift m (d + v.length) hits]
    constructor
    · rintro (⟨rfl, rfl⟩ | ⟨n', rfl, h⟩)
      · exact ⟨_, rfl, .inl ⟨rfl, rfl⟩⟩
      · exact ⟨_, rfl, .inr h⟩
    · rintro ⟨n', rfl, ⟨rfl, rfl⟩ | h⟩
      · exact .inl ⟨rfl, rfl⟩
      · exact .inr ⟨_, rfl, h⟩

theorem depths_ge : ∀ (m : Nat) (hits : List (Nat × Slots)), (∀ p ∈ hits, p.2 ≠ []) → (∀ p ∈ depths m hits, m < p.2) ∧ (depths m hits).Pairwise (·.2 < ·.2)
  | _, [], _ => by simp [depths]
  | m, (i, v) :: hits, h => by
    obtain ⟨a, b⟩ := depths_ge (m + v.length) hits (fun p hp => h p (List.mem_cons_of_mem _ hp))
    have hv : 0 < v.length := List.length_pos_of_ne_nil (h _ List.mem_cons_self)
    simp only [depths, List.mem_cons, List.pairwise_cons]
    refine ⟨?_, a, b⟩
    rintro p (rfl | hp)
    · show m < m + v.length; omega
    · have := a p hp; omega

theorem pathTo_ne {P : Nat} {y : Nat} : ∀ {f : Forest}, WF P f → ∀ {e k s}, PathTo y f e k s → k ≠ []
  | .nil, _, _, _, _, h => h.elim
  | .node i k x v l t kids rest, ⟨h1, h2, h3, h4, h5, h6⟩, e, key, s, h => by
    rcases h with h | ⟨_, ⟨_, rfl, _⟩ | ⟨k', s', rfl, _, h⟩⟩
    · exact pathTo_ne h6 h
    · exact h1
    · simp [h1]

theorem hits_ne {P : Nat} (hP : 0 < P) {e : Ext} {fresh : Nat} : ∀ {f : Forest}, WF P f → ∀ {key : Key}, P ∣ key.length →
    ∀ p ∈ (mwalk P e fresh f key).hits, p.2 ≠ []
  | .nil, _, _, _ => by simp [mwalk]
  | .node i k x v l t kids rest, ⟨h1, h2, h3, h4, h5, h6⟩, key, hk => by
    unfold mwalk
    split
    · simp
    · rename_i hne
      split
      · rename_i hc
        have km := kmatch_spec hP h2 hk
        split
        · intro p hp
          rw [List.mem_singleton] at hp
          subst hp
          have := km.pos h1 hne hc.2
          have hv : 0 < v.length := by rw [h3]; exact List.length_pos_of_ne_nil h1
          apply List.ne_nil_of_length_pos
          simp only [List.length_take]; omega
        · intro p hp
          rcases List.mem_cons.1 hp with rfl | hp
          · apply List.ne_nil_of_length_pos
            show 0 < v.length
            rw [h3]; exact List.length_pos_of_ne_nil h1
          · exact hits_ne hP h5 (by rw [List.length_drop]; exact Nat.dvd_sub hk km.dvd) p hp
      · exact hits_ne hP h6 hk

theorem wf_mwalk {P : Nat} (hP : 0 < P) {e : Ext} {fresh : Nat} {f : Forest} (hw : WF P f) {key : Key} (hk : P ∣ key.length) :
    WF P (mwalk P e fresh f key).tree := by
  rw [← (mwalk_eq f key).2.2.1]
  exact wf_match hP hw hk

/-- The nodes passed are the nodes whose tokens are a prefix of the key. -/
theorem hits_iff {P : Nat} (hP : 0 < P) {e : Ext} {fresh : Nat} : ∀ {f : Forest}, WF P f → ∀ {key : Key}, P ∣ key.length → ∀ (i n : Nat),
    (i, n) ∈ depths 0 (mwalk P e fresh f key).hits ↔ n ≤ key.length ∧ ∃ sl, PathTo i (mwalk P e fresh f key).tree e (key.take n) sl
  | .nil, _, key, _ => by
    intro i n
    simp [mwalk, depths, PathTo]
  | .node i k x v l t kids rest, hw, key, hk => by
    intro y n
    have hwf := wf_mwalk hP (e := e) (fresh := fresh) hw hk
    obtain ⟨h1, h2, h3, h4, h5, h6⟩ := hw
    have hge := ge_of_dvd h2 h1
    have hnone : n ≤ key.length → (∃ sl, PathTo y (mwalk P e fresh (.node i k x v l t kids rest) key).tree e (key.take n) sl) → key ≠ [] := by
      rintro hn ⟨sl, hp⟩ rfl
      exact pathTo_ne hwf hp (by simp)
    by_cases hc0 : key = []
    · have : (mwalk P e fresh (.node i k x v l t kids rest) key).hits = [] := by unfold mwalk; rw [if_pos hc0]
      rw [this]
      constructor
      · intro h; cases h
      · rintro ⟨hn, h⟩; exact absurd hc0 (hnone hn h)
    · by_cases hc : x = e ∧ k.take P = key.take P
      · have km := kmatch_spec hP h2 hk
        -- no path through the later siblings
        have hrest : ∀ {sl m}, PathTo y rest e (key.take m) sl → False := by
          intro sl m hp
          have hne := pathTo_ne h6 hp
          have hcd := pathTo_cached h6 hp
          obtain ⟨hd, -⟩ := cached_len h6 hcd
          have hpage : (key.take m).take P = k.take P := by
            rw [List.take_take]
            have : P ≤ (key.take m).length := ge_of_dvd hd hne
            rw [List.length_take] at this
            rw [Nat.min_eq_left (by omega), hc.2]
          refine cached_noHead h6 hne ?_ hcd
          rw [hpage, ← hc.1]; exact h4
        by_cases hlt : kmatch P k key < k.length
        · have hw' : mwalk P e fresh (.node i k x v l t kids rest) key =
              ⟨[(fresh, v.take (kmatch P k key))], some (i, fresh, kmatch P k key),
                .node fresh (k.take (kmatch P k key)) x (v.take (kmatch P k key)) l 0
                  (.node i (k.drop (kmatch P k key)) x (v.drop (kmatch P k key)) l 0 kids .nil) rest, fresh + 1⟩ := by
            rw [mwalk, if_neg hc0, if_pos hc, if_pos hlt]
          rw [hw'] at hwf ⊢
          simp only [depths, List.mem_singleton, Prod.mk.injEq, Nat.zero_add]
          have hlv : (v.take (kmatch P k key)).length = kmatch P k key := by rw [List.length_take]; omega
          rw [hlv]
          constructor
          · rintro ⟨rfl, rfl⟩
            exact ⟨km.leb, _, .inr ⟨hc.1, .inl ⟨rfl, km.eq.symm, rfl⟩⟩⟩
          · rintro ⟨hn, sl, hp⟩
            rcases hp with hp | ⟨_, ⟨rfl, hkk, _⟩ | ⟨k', s', hkk, _, hp⟩⟩
            · exact (hrest hp).elim
            · refine ⟨rfl, ?_⟩
              have := congrArg List.length hkk
              simp only [List.length_take] at this
              omega
            · exfalso
              obtain ⟨-, -, -, -, hw5, -⟩ := hwf
              have hne := pathTo_ne hw5 hp
              have hcd := pathTo_cached hw5 hp
              obtain ⟨hd', -⟩ := cached_len hw5 hcd
              have hk' : k' = (key.drop (kmatch P k key)).take (n - kmatch P k key) := by
                have h0 := congrArg (List.drop (kmatch P k key)) hkk
                have hl2 : (k.take (kmatch P k key)).length = kmatch P k key := by rw [List.length_take]; omega
                rw [List.drop_left' hl2, List.drop_take] at h0
                exact h0.symm
              have hpage : k'.take P = (key.drop (kmatch P k key)).take P := by
                have hlen : P ≤ k'.length := ge_of_dvd hd' hne
                rw [hk', List.length_take] at hlen
                rw [hk', List.take_take, Nat.min_eq_left (by omega)]
              have hkey : kmatch P k key < key.length := by
                by_contra hh
                apply hne
                rw [hk', List.drop_of_length_le (by omega)]; simp
              have hmax := km.max hlt hkey
              rcases hp with hp | ⟨_, ⟨_, hkk2, _⟩ | ⟨k2, s2, hkk2, _, _⟩⟩
              · exact hp
              · rw [hkk2] at hpage; exact hmax hpage
              · have hge2 : P ≤ (k.drop (kmatch P k key)).length :=
                  ge_of_dvd (by rw [List.length_drop]; exact Nat.dvd_sub h2 km.dvd) (by
                    intro h0; have := congrArg List.length h0; simp at this; omega)
                rw [hkk2, append_page hge2] at hpage
                exact hmax hpage
        · have hm : kmatch P k key = k.length := by have := km.lea; omega
          have hkt : key.take k.length = k := by
            have := km.eq
            rw [hm, List.take_length] at this
            exact this.symm
          have hw' : mwalk P e fresh (.node i k x v l t kids rest) key =
              ⟨(i, v) :: (mwalk P e fresh kids (key.drop (kmatch P k key))).hits, (mwalk P e fresh kids (key.drop (kmatch P k key))).split,
                .node i k x v l 0 (mwalk P e fresh kids (key.drop (kmatch P k key))).tree rest, (mwalk P e fresh kids (key.drop (kmatch P k key))).fresh⟩ := by
            rw [mwalk, if_neg hc0, if_pos hc, if_neg hlt]
          have hdk : P ∣ (key.drop (kmatch P k key)).length := by rw [List.length_drop]; exact Nat.dvd_sub hk km.dvd
          have ih := hits_iff hP (e := e) (fresh := fresh) h5 hdk
          rw [hw'] at hwf ⊢
          have hkl : k.length ≤ key.length := by rw [← hm]; exact km.leb
          simp only [depths, List.mem_cons, Prod.mk.injEq, Nat.zero_add]
          have hsh := depths_shift v.length 0 (mwalk P e fresh kids (key.drop (kmatch P k key))).hits y n
          rw [Nat.add_zero] at hsh
          rw [hsh, h3]
          constructor
          · rintro (⟨rfl, rfl⟩ | ⟨n', rfl, hd⟩)
            · exact ⟨hkl, v, .inr ⟨hc.1, .inl ⟨rfl, hkt, rfl⟩⟩⟩
            · obtain ⟨a, sl, b⟩ := (ih y n').1 hd
              rw [List.length_drop] at a
              refine ⟨by omega, v ++ sl, ?_⟩
              rw [List.take_add, hkt, ← hm]
              exact pathTo_node hc.1 b
          · rintro ⟨hn, sl, hp⟩
            rcases hp with hp | ⟨_, ⟨rfl, hkk, _⟩ | ⟨k', s', hkk, _, hp⟩⟩
            · exact (hrest hp).elim
            · left
              refine ⟨rfl, ?_⟩
              have := congrArg List.length hkk
              rw [List.length_take] at this
              omega
            · right
              have hl1 := congrArg List.length hkk
              rw [List.length_take, List.length_append] at hl1
              have hk' : k' = (key.drop (kmatch P k key)).take (n - k.length) := by
                have h0 := congrArg (List.drop k.length) hkk
                rw [List.drop_left' rfl, List.drop_take] at h0
                rw [hm]; exact h0.symm
              refine ⟨n - k.length, by omega, (ih y _).2 ⟨?_, s', ?_⟩⟩
              · rw [List.length_drop]; omega
              · rw [← hk']; exact hp
      · have hw' : mwalk P e fresh (.node i k x v l t kids rest) key =
            ⟨(mwalk P e fresh rest key).hits, (mwalk P e fresh rest key).split, .node i k x v l t kids (mwalk P e fresh rest key).tree,
              (mwalk P e fresh rest key).fresh⟩ := by
          rw [mwalk, if_neg hc0, if_neg hc]
        have ih := hits_iff hP (e := e) (fresh := fresh) h6 hk y n
        rw [hw'] at hwf ⊢
        simp only
        rw [ih]
        refine and_congr_right fun hn => ⟨?_, ?_⟩
        · rintro ⟨sl, hp⟩; exact ⟨sl, .inl hp⟩
        · rintro ⟨sl, hp⟩
          have hne := pathTo_ne hwf hp
          have hd := (cached_len hwf (pathTo_cached hwf hp)).1
          have hpl : P ≤ n := by
            have := ge_of_dvd hd hne
            rw [List.length_take] at this
            omega
          rcases hp with hp | ⟨hx, ⟨_, hkk, _⟩ | ⟨k', s', hkk, _, _⟩⟩
          · exact ⟨sl, hp⟩
          · refine absurd ⟨hx, ?_⟩ hc
            rw [← hkk, List.take_take, Nat.min_eq_left hpl]
          · refine absurd ⟨hx, ?_⟩ hc
            have := congrArg (List.take P) hkk
            rw [List.take_take, Nat.min_eq_left hpl, append_page hge] at this
            exact this.symm

/-- C134: `match_prefix` makes the matched path the most recently used part of both lists, the deepest node first, and leaves the order of
the other nodes alone. The path are the nodes whose tokens are a prefix of the key; a node that the match had to split off (`new`) is
on it. -/
theorem C134_match {P : Nat} (hP : 0 < P) {ops : List Op} {s : St} (h : Reach P ops s) (e : Ext) (key : Key) {lf lm : List Nat}
    (hf : Rep s.c.flru lf) (hm : Rep s.c.mlru lm) {r : Slots × Option Nat × Option Nat} {c' : MC} (hr : s.c.matchPrefix P e key = (r, c')) :
    ∃ path : List (Nat × Nat),
      (∀ i n, (i, n) ∈ path ↔ n ≤ key.length ∧ ∃ sl, PathTo i c'.cache.tree e (key.take n) sl) ∧ path.Pairwise (fun a b => b.2 < a.2) ∧
      Rep c'.flru (path.map (·.1) ++ lf.filter (fun i => decide (i ∉ path.map (·.1)))) ∧
      Rep c'.mlru ((path.map (·.1)).filter (fun i => decide (c'.mv i ≠ none)) ++ lm.filter (fun i => decide (i ∉ path.map (·.1)))) := by
  have hi := mInv_reach hP h
  obtain ⟨lf', lm', hl⟩ := hi.lists
  obtain rfl := rep_unique hf hl.full
  obtain rfl := rep_unique hm hl.mam
  have hL := lists_match (P := P) (e := e) (key := key) hl hi.inv.lt (match_nodup hP hi e key)
  have hd := align_dvd P key
  have htree : (s.c.matchPrefix P e key).2.cache.tree = (mwalk P e s.c.cache.fresh s.c.cache.tree (align P key)).tree := by
    unfold MC.matchPrefix
    simp only [split_cache]
  have hit := hits_iff hP (e := e) (fresh := s.c.cache.fresh) hi.inv.wf hd
  have hpw := (depths_ge 0 _ (hits_ne hP (e := e) (fresh := s.c.cache.fresh) hi.inv.wf hd)).2
  have hwf := wf_mwalk hP (e := e) (fresh := s.c.cache.fresh) hi.inv.wf hd
  have hspl : ∀ a new n, (mwalk P e s.c.cache.fresh s.c.cache.tree (align P key)).split = some (a, new, n) →
      new ∈ (mwalk P e s.c.cache.fresh s.c.cache.tree (align P key)).hits.map (·.1) := by
    have gen : ∀ (f : Forest) (k : Key) a new n, (mwalk P e s.c.cache.fresh f k).split = some (a, new, n) →
        new ∈ (mwalk P e s.c.cache.fresh f k).hits.map (·.1) := by
      intro f
      induction f with
      | nil => intro k a new n hh; cases hh
      | node i k x v l t kids rest ihk ihr =>
        intro kk a new n hh
        unfold mwalk at hh ⊢
        split at hh
        · cases hh
        · rename_i c0
          rw [if_neg c0]
          split at hh
          · rename_i c1
            rw [if_pos c1]
            split at hh
            · rename_i c2
              rw [if_pos c2]
              cases hh
              simp
            · rename_i c2
              rw [if_neg c2]
              simp only [List.map_cons, List.mem_cons]
              exact .inr (ihk _ a new n hh)
          · rename_i c1
            rw [if_neg c1]
            exact ihr _ a new n hh
    exact gen _ _
  have hnotf : ∀ i ∈ lf, i < s.c.cache.fresh := fun i hm => hi.inv.lt i ((hl.fmem i).1 hm)
  have hok := mwalk_ok (P := P) (e := e) (fresh := s.c.cache.fresh) s.c.cache.tree (align P key)
  have hcr : c' = (s.c.matchPrefix P e key).2 := by rw [hr]
  subst hcr
  simp only at hL
  obtain ⟨w, hw⟩ : ∃ w, w = mwalk P e s.c.cache.fresh s.c.cache.tree (align P key) := ⟨_, rfl⟩
  simp only [← hw] at hL htree hit hpw hwf hspl hok
  refine ⟨(depths 0 w.hits).reverse, fun i n => ?_, ?_, ?_, ?_⟩
  · rw [List.mem_reverse, hit, htree]
    constructor
    · rintro ⟨hn, sl, hp⟩
      rw [align_take hn] at hp
      have : (align P key).length ≤ key.length := by rw [align, List.length_take]; omega
      exact ⟨by omega, sl, hp⟩
    · rintro ⟨hn, sl, hp⟩
      have hdd := (cached_len hwf (pathTo_cached hwf hp)).1
      rw [List.length_take, Nat.min_eq_left hn] at hdd
      have := align_len hP hn hdd
      exact ⟨this, sl, by rw [align_take this]; exact hp⟩
  · rw [List.pairwise_reverse]; exact hpw
  · have e1 : (depths 0 w.hits).reverse.map (·.1) = w.hits.reverse.map (·.1) := by
      rw [List.map_reverse, List.map_reverse, depths_fst]
    rw [e1]
    have := hL.full
    rw [List.filter_append] at this
    have e2 : (w.split.toList.map (·.2.1)).filter (fun i => decide (i ∉ w.hits.reverse.map (·.1))) = [] := by
      rw [List.filter_eq_nil_iff]
      intro i hmm
      simp only [List.mem_map, Option.mem_toList] at hmm
      obtain ⟨⟨a, new, n⟩, hs, rfl⟩ := hmm
      have := hspl a new n hs
      rw [List.map_reverse]
      simpa using this
    rw [e2, List.nil_append] at this
    exact this
  · have e1 : (depths 0 w.hits).reverse.map (·.1) = w.hits.reverse.map (·.1) := by
      rw [List.map_reverse, List.map_reverse, depths_fst]
    rw [e1]
    have := hL.mam
    have e2 : (splitM s.c.mv lm w.split).filter (fun i => decide (i ∉ w.hits.reverse.map (·.1))) =
        lm.filter (fun i => decide (i ∉ w.hits.reverse.map (·.1))) := by
      cases hs : w.split with
      | none => rfl
      | some p =>
        obtain ⟨a, new, n⟩ := p
        unfold splitM
        simp only
        split
        · rfl
        · rw [List.filter_cons_of_neg]
          have := hspl a new n hs
          rw [List.map_reverse]
          simpa using this
    rw [e2] at this
    exact this

/-- C134: `insert` puts the nodes it creates at the most recently used end, the leaf first, and leaves the order of the others alone. -/
theorem C134_insert {P : Nat} (hP : 0 < P) {ops : List Op} {s : St} (h : Reach P ops s) (e : Ext) (key : Key) (val : Slots) (mval : Option Slots)
    {lf : List Nat} (hf : Rep s.c.flru lf) :
    ∃ new : List Nat, Rep (s.c.insert P e key val mval).2.flru (new ++ lf) ∧
      (ids (s.c.insert P e key val mval).2.cache.tree).Perm (new ++ ids s.c.cache.tree) ∧ new.length ≤ 2 ∧
      (∀ y, (s.c.insert P e key val mval).1.2.1 = some y → y ∈ new → new.head? = some y) := by
  have hi := mInv_reach hP h
  obtain ⟨lf', lm', hls⟩ := hi.lists
  obtain rfl := rep_unique hf hls.full
  by_cases hk : key = []
  · refine ⟨[], ?_⟩
    unfold MC.insert
    rw [if_pos hk]
    exact ⟨hf, .refl _, by simp, by simp⟩
  · have hL := lists_insert (P := P) (e := e) (key := key) (val := val) (mval := mval) hls hi.inv.lt hk
    have ok := minsRoot_ok (P := P) (e := e) (fresh := s.c.cache.fresh) s.c.cache.tree key val
    have hlast := minsRoot_last (P := P) (e := e) (fresh := s.c.cache.fresh) s.c.cache.tree key val
    simp only at hL
    have htree : (s.c.insert P e key val mval).2.cache.tree = (minsRoot P e s.c.cache.fresh s.c.cache.tree key val).tree := by
      unfold MC.insert
      rw [if_neg hk]
      simp only [store_cache, split_cache]
    have hres : (s.c.insert P e key val mval).1.2.1 = some (minsRoot P e s.c.cache.fresh s.c.cache.tree key val).last := by
      unfold MC.insert
      rw [if_neg hk]
    obtain ⟨r, hr⟩ : ∃ r, r = minsRoot P e s.c.cache.fresh s.c.cache.tree key val := ⟨_, rfl⟩
    simp only [← hr] at hL ok htree hres hlast
    refine ⟨r.leaf.toList.map (·.1) ++ r.split.toList.map (·.2.1), ?_, ?_, ?_, ?_⟩
    · rw [List.append_assoc]; exact hL.full
    · rw [htree]; exact ok.ids
    · cases r.leaf <;> cases r.split <;> simp
    · intro y hy hm
      rw [hres] at hy
      cases hy
      cases hlf : r.leaf with
      | some p =>
        obtain ⟨i, n⟩ := p
        have := hlast.leaf i n hlf
        simp [this]
      | none =>
        rw [hlf] at hm
        cases hsp : r.split with
        | none => rw [hsp] at hm; cases hm
        | some p => rw [hsp] at hm; simp at hm ⊢; exact hm.symm

/-! ### Eviction -/

/-- Eviction in the order of last use: while fewer than `target` slots are freed and some leaf is unlocked, the unlocked leaf that comes last
in the order `l` is removed. States are (tree, order, freed slots). -/
inductive LruRun (target : Nat) : Forest × List Nat × Slots → Forest × List Nat × Slots → Prop where
  | stop {f l fr} : (target ≤ fr.length ∨ ∀ n ∈ infos f, ¬ (n.leaf = true ∧ n.lock = 0)) → LruRun target (f, l, fr) (f, l, fr)
  | next {f l1 l2 fr r} (n : Info) : fr.length < target → n ∈ infos f → n.leaf = true → n.lock = 0 →
      (∀ m ∈ infos f, m.id ∈ l2 → ¬ (m.leaf = true ∧ m.lock = 0)) → LruRun target (remove n.id f, l1 ++ l2, fr ++ n.val) r →
      LruRun target (f, l1 ++ n.id :: l2, fr) r

theorem phase1_lru {target : Nat} {s s' : EvM} (hp : Phase1 target s s') : EvGood s → s.full = s.freed.length → ∀ {lf}, Rep s.c.flru lf →
    ∃ lf', Rep s'.c.flru lf' ∧ LruRun target (s.c.cache.tree, lf, s.freed) (s'.c.cache.tree, lf', s'.freed) := by
  induction hp with
  | enough s hc => intro h hfl lf hf; exact ⟨lf, hf, .stop (.inl (by omega))⟩
  | none s hc hn =>
    intro h hfl lf hf
    refine ⟨lf, hf, .stop (.inr fun n hn' hh => ?_)⟩
    have := no_leaf h hn n.id (mem_ids_of hn')
    rw [leafFree_iff.2 ⟨n, info_of_mem h.nodup hn', hh.2, hh.1⟩] at this
    cases this
  | @pop s s' x hc hx _ ih =>
    intro h hfl lf hf
    obtain ⟨lf', lm, hl⟩ := h.lists
    obtain rfl := rep_unique hf hl.full
    have hfree := find_leaf hx
    obtain ⟨g1, -, hin⟩ := lists_leaf h.nodup hl hfree
    obtain ⟨n, hn, h0, hlf⟩ := leafFree_iff.1 hfree
    obtain ⟨hm, rfl⟩ := info_some hn
    have hfind := (rep_lru hl.full).1 hx
    obtain ⟨as, bs, hsp, hbefore⟩ := (List.find?_eq_some_iff_append.1 hfind.symm).2
    have hlf2 : lf = bs.reverse ++ n.id :: as.reverse := by
      have := congrArg List.reverse hsp
      simpa using this
    have hnd := hl.full.nodup
    have hnb : n.id ∉ bs.reverse := by
      intro hmem
      rw [hlf2] at hnd
      exact (List.nodup_append.1 hnd).2.2 _ hmem _ List.mem_cons_self rfl
    have hers : lf.erase n.id = bs.reverse ++ as.reverse := by
      rw [hlf2, List.erase_append_right _ hnb, List.erase_cons_head]
    rw [hers] at g1
    have hfr : (evictLeaf s n.id).freed = s.freed ++ n.val := by simp only [evictLeaf, hn]
    have htr : (evictLeaf s n.id).c.cache.tree = remove n.id s.c.cache.tree := by simp only [evictLeaf, hn]
    have hful : (evictLeaf s n.id).full = (evictLeaf s n.id).freed.length := by
      rw [hfr, List.length_append, ← hfl]; simp only [evictLeaf, hn]
    obtain ⟨lf3, h3, h4⟩ := ih (evGood_leaf h hfree) hful g1.full
    refine ⟨lf3, h3, ?_⟩
    rw [hlf2]
    rw [hfr, htr] at h4
    refine .next n (by omega) hm hlf h0 (fun m hm' hml hh => ?_) h4
    have := hbefore m.id (List.mem_reverse.1 hml)
    rw [leafFree_iff.2 ⟨m, info_of_mem h.nodup hm', hh.2, hh.1⟩] at this
    cases this

/-- C134: `evict` removes unlocked leaves in the order of last use, until enough is freed or none is left. -/
theorem C134_evict {P : Nat} (hP : 0 < P) {ops : List Op} {s : St} (h : Reach P ops s) {target mtarget : Nat} {r : EvM}
    (he : s.c.Evict target mtarget r) {lf : List Nat} (hf : Rep s.c.flru lf) :
    ∃ lf', Rep r.c.flru lf' ∧ LruRun target (s.c.cache.tree, lf, []) (r.c.cache.tree, lf', r.freed) := by
  obtain ⟨m, h1, h2⟩ := he
  obtain ⟨a, b, -, d, -⟩ := phase2_cache h2
  obtain ⟨lf', h3, h4⟩ := phase1_lru h1 ((mInv_reach hP h).good _ _ _ _) rfl hf
  exact ⟨lf', by rw [d]; exact h3, by rw [a, b]; exact h4⟩

/-- Eviction of states in the order of last use, among the nodes without a lock on their state. -/
inductive StRun (target : Nat) (ml : Nat → Int) : Nat × List Nat × Slots → Nat × List Nat × Slots → (Nat → Option Slots) → (Nat → Option Slots) → Prop where
  | stop {k l fr mv} : (target ≤ k ∨ ∀ i ∈ l, ml i ≠ 0) → StRun target ml (k, l, fr) (k, l, fr) mv mv
  | next {k l1 l2 fr r mv mv'} (i : Nat) (m : Slots) : k < target → ml i = 0 → (∀ j ∈ l2, ml j ≠ 0) → mv i = some m →
      StRun target ml (k + m.length, l1 ++ l2, fr ++ m) r (Function.update mv i none) mv' → StRun target ml (k, l1 ++ i :: l2, fr) r mv mv'

theorem phase2_lru {target : Nat} {s s' : EvM} (hp : Phase2 target s s') : EvGood s → ∀ {lm}, Rep s.c.mlru lm →
    ∃ lm', Rep s'.c.mlru lm' ∧ StRun target s.c.ml (s.mamba, lm, s.mfreed) (s'.mamba, lm', s'.mfreed) s.c.mv s'.c.mv := by
  induction hp with
  | enough s hc => intro h lm hf; exact ⟨lm, hf, .stop (.inl hc)⟩
  | none s hc hn =>
    intro h lm hf
    refine ⟨lm, hf, .stop (.inr fun i hi h0 => ?_)⟩
    have := List.find?_eq_none.1 ((rep_lru hf).1 hn).symm i (List.mem_reverse.2 hi)
    simp [h0] at this
  | skip x _ hx hm => intro h; exact absurd hm (no_skip h hx)
  | @pop s s' x m hc hx hm _ ih =>
    intro h lm hf
    obtain ⟨lf', lm', hl⟩ := h.lists
    obtain rfl := rep_unique hf hl.mam
    have g1 := lists_state hl hm
    have hfind := (rep_lru hl.mam).1 hx
    obtain ⟨as, bs, hsp, hbefore⟩ := (List.find?_eq_some_iff_append.1 hfind.symm).2
    have hlm2 : lm = bs.reverse ++ x :: as.reverse := by
      have := congrArg List.reverse hsp
      simpa using this
    have hnd := hl.mam.nodup
    have hnb : x ∉ bs.reverse := by
      intro hmem
      rw [hlm2] at hnd
      exact (List.nodup_append.1 hnd).2.2 _ hmem _ List.mem_cons_self rfl
    have hers : lm.erase x = bs.reverse ++ as.reverse := by
      rw [hlm2, List.erase_append_right _ hnb, List.erase_cons_head]
    rw [hers] at g1
    obtain ⟨lm3, h3, h4⟩ := ih (evGood_state h hm) g1.mam
    refine ⟨lm3, h3, ?_⟩
    rw [hlm2]
    have h0 := find_leaf hx
    refine .next x m hc (by simpa using h0) (fun j hj hh => ?_) hm h4
    have := hbefore j (List.mem_reverse.1 hj)
    simp [hh] at this

/-- C134: the states are evicted in the order of last use among those without a lock, after the leaves. -/
theorem C134_evict_states {P : Nat} (hP : 0 < P) {ops : List Op} {s : St} (h : Reach P ops s) {mtarget : Nat} {r : EvM}
    (he : s.c.Evict 0 mtarget r) {lm : List Nat} (hm : Rep s.c.mlru lm) :
    ∃ lm', Rep r.c.mlru lm' ∧ StRun mtarget s.c.ml (0, lm, []) (r.mamba, lm', r.mfreed) s.c.mv r.c.mv ∧ r.c.cache = s.c.cache := by
  obtain ⟨m, h1, h2⟩ := he
  have : m = ⟨s.c, [], [], 0, 0⟩ := by
    cases h1 with
    | enough => rfl
    | none => rfl
    | pop x hc => exact absurd hc (by simp)
  subst this
  obtain ⟨lm', h3, h4⟩ := phase2_lru h2 ((mInv_reach hP h).good _ _ _ _) hm
  exact ⟨lm', h3, h4, (phase2_cache h2).1⟩

theorem phase1_det {target : Nat} {s s1 : EvM} (h1 : Phase1 target s s1) : EvGood s → ∀ {s2}, Phase1 target s s2 → s1 = s2 := by
  induction h1 with
  | enough s hc =>
    intro _ s2 h2
    cases h2 with
    | enough => rfl
    | none => rfl
    | pop _ h => omega
  | none s hc hn =>
    intro hg s2 h2
    obtain ⟨lf, lm, hl⟩ := hg.lists
    cases h2 with
    | enough => rfl
    | none => rfl
    | pop x _ hx => exact absurd (((rep_lru hl.full).1 hn).trans ((rep_lru hl.full).1 hx).symm) (by simp)
  | pop x hc hx _ ih =>
    intro hg s2 h2
    obtain ⟨lf, lm, hl⟩ := hg.lists
    cases h2 with
    | enough => omega
    | none _ _ hn => exact absurd (((rep_lru hl.full).1 hn).trans ((rep_lru hl.full).1 hx).symm) (by simp)
    | pop y _ hy h3 =>
      have := ((rep_lru hl.full).1 hx).trans ((rep_lru hl.full).1 hy).symm
      cases this
      exact ih (evGood_leaf hg (find_leaf hx)) h3

theorem phase2_det {target : Nat} {s s1 : EvM} (h1 : Phase2 target s s1) : EvGood s → ∀ {s2}, Phase2 target s s2 → s1 = s2 := by
  induction h1 with
  | enough s hc =>
    intro _ s2 h2
    cases h2 with
    | enough => rfl
    | none => rfl
    | skip _ h => omega
    | pop _ _ h => omega
  | none s hc hn =>
    intro hg s2 h2
    obtain ⟨lf, lm, hl⟩ := hg.lists
    cases h2 with
    | enough => rfl
    | none => rfl
    | skip x _ hx hm => exact absurd hm (no_skip hg hx)
    | pop x _ _ hx => exact absurd (((rep_lru hl.mam).1 hn).trans ((rep_lru hl.mam).1 hx).symm) (by simp)
  | skip x _ hx hm => intro hg; exact absurd hm (no_skip hg hx)
  | pop x m hc hx hm _ ih =>
    intro hg s2 h2
    obtain ⟨lf, lm, hl⟩ := hg.lists
    cases h2 with
    | enough => omega
    | none _ _ hn => exact absurd (((rep_lru hl.mam).1 hn).trans ((rep_lru hl.mam).1 hx).symm) (by simp)
    | skip y _ hy hmy => exact absurd hmy (no_skip hg hy)
    | pop y m' _ hy hm' h3 =>
      have := ((rep_lru hl.mam).1 hx).trans ((rep_lru hl.mam).1 hy).symm
      cases this
      rw [hm] at hm'
      cases hm'
      exact ih (evGood_state hg hm) h3

/-- C134: in every state `evict` ends, with one possible result (the `continue` of L466-467 is never taken). -/
theorem C134_evict_ends {P : Nat} (hP : 0 < P) {ops : List Op} {s : St} (h : Reach P ops s) (target mtarget : Nat) :
    ∃! r, s.c.Evict target mtarget r := by
  have g : EvGood ⟨s.c, [], [], 0, 0⟩ := (mInv_reach hP h).good _ _ _ _
  obtain ⟨m, h1⟩ := phase1_total target _ _ g rfl
  have gm := evGood_phase1 h1 g
  obtain ⟨lf, lm, hl⟩ := gm.lists
  obtain ⟨r, h2⟩ := phase2_total mtarget _ _ gm lf lm hl rfl
  refine ⟨r, ⟨m, h1, h2⟩, ?_⟩
  rintro r' ⟨m', h1', h2'⟩
  obtain rfl := phase1_det h1 g h1'
  exact (phase2_det h2 gm h2').symm

/-- Non-vacuity: three sequences with states, the oldest is matched again; then the lists are as the theorems say, and an eviction takes
the one not used since. -/
example : ∃ ops s, Reach 1 ops s ∧ Rep s.c.flru [1, 3, 2] ∧ Rep s.c.mlru [1, 3, 2] := by
  have hr := reach_mat (reach_ins (reach_ins (reach_ins .init [1] [10] (some [7]) rfl) [2] [11] (some [8]) rfl) [3] [12] (some [9]) rfl) [1]
  refine ⟨_, _, hr, ?_⟩
  have h0 := rep_insert (rep_insert (rep_insert rep_empty (x := 1) (by simp)) (x := 2) (by simp)) (x := 3) (by simp)
  exact ⟨rep_touch (skip := fun _ => false) (path := [1]) (done := []) h0 (by simp) (by simp),
    rep_touch (skip := fun i => (ins (ins (ins st0 [1] [10] (some [7])) [2] [11] (some [8])) [3] [12] (some [9])).c.mv i == none) (path := [1]) (done := []) h0 (by simp) (by simp)⟩

end Verif.Mamba
