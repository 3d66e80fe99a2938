import Verif.Compile.Solve
/- The solved module (C32). -/
namespace Verif.Compile

variable {T W : Type} {S : Sem T W}

def setG (G : List (Name × List Op)) (n : Name) (b : List Op) : List (Name × List Op) :=
  G.map fun q => if q.1 = n then (q.1, b) else q

def setGs (G : List (Name × List Op)) (l : List (Name × List Op)) : List (Name × List Op) :=
  l.foldl (fun G q => setG G q.1 q.2) G

theorem setG_names (G : List (Name × List Op)) (n : Name) (b : List Op) : (setG G n b).map Prod.fst = G.map Prod.fst := by
  rw [setG, List.map_map]
  refine List.map_congr_left fun q _ => ?_
  simp only [Function.comp]
  split_ifs <;> rfl

theorem setGs_names (l G : List (Name × List Op)) : (setGs G l).map Prod.fst = G.map Prod.fst := by
  induction l generalizing G with
  | nil => rfl
  | cons q l ih =>
    have : setGs G (q :: l) = setGs (setG G q.1 q.2) l := rfl
    rw [this, ih, setG_names]

theorem setGs_mem (l G : List (Name × List Op)) : ∀ q ∈ setGs G l, q ∈ l ∨ q ∈ G := by
  induction l generalizing G with
  | nil => intro q h; exact .inr h
  | cons p l ih =>
    intro q h
    rcases ih (setG G p.1 p.2) q h with h | h
    · exact .inl (List.mem_cons_of_mem _ h)
    · obtain ⟨x, hx, he⟩ := List.mem_map.1 h
      by_cases e : x.1 = p.1
      · rw [if_pos e] at he
        left
        rw [← he, e]
        exact List.mem_cons_self ..
      · rw [if_neg e] at he
        exact .inr (he ▸ hx)

theorem setGs_keep (l G : List (Name × List Op)) (q : Name × List Op) (h : q ∈ G) (hn : q.1 ∉ l.map Prod.fst) :
    q ∈ setGs G l := by
  induction l generalizing G with
  | nil => exact h
  | cons p l ih =>
    rw [List.map_cons, List.mem_cons, not_or] at hn
    refine ih (setG G p.1 p.2) ?_ hn.2
    exact List.mem_map.2 ⟨q, h, if_neg hn.1⟩

theorem setGs_new (l G : List (Name × List Op)) (hl : (l.map Prod.fst).Nodup)
    (hG : ∀ q ∈ l, q.1 ∈ G.map Prod.fst) : ∀ q ∈ l, q ∈ setGs G l := by
  induction l generalizing G with
  | nil => intro q h; simp at h
  | cons p l ih =>
    rw [List.map_cons, List.nodup_cons] at hl
    intro q hq
    have e : setGs G (p :: l) = setGs (setG G p.1 p.2) l := rfl
    rw [e]
    rcases List.mem_cons.1 hq with rfl | hq
    · refine setGs_keep l _ q ?_ hl.1
      obtain ⟨x, hx, hxe⟩ := List.mem_map.1 (hG q (List.mem_cons_self ..))
      exact List.mem_map.2 ⟨x, hx, by rw [if_pos hxe, hxe]⟩
    · refine ih (setG G p.1 p.2) hl.2 (fun q hq => ?_) q hq
      rw [setG_names]
      exact hG q (List.mem_cons_of_mem _ hq)

theorem setGraph_mkRegion (regs : List Nat) (n0 : Name) (ins outs : List Nat) (G : List (Name × List Op)) (n : Name)
    (b : List Op) (h : reserved n = false) :
    setGraph (mkRegion regs n0 ins outs G) n b = mkRegion regs n0 ins outs (setG G n b) := by
  have h1 : initName ≠ n := by
    rintro rfl; revert h; decide
  have h2 : deinitName ≠ n := by
    rintro rfl; revert h; decide
  simp only [setGraph, mkRegion, setG, List.map_append, List.map_cons, List.map_nil, setTop, List.map_map,
    if_neg h1, if_neg h2]
  congr 1
  refine List.map_congr_left fun q _ => ?_
  simp only [Function.comp, setTop]
  split_ifs <;> rfl

theorem setGraphs_mkRegion (regs : List Nat) (n0 : Name) (ins outs : List Nat) (l G : List (Name × List Op))
    (h : ∀ q ∈ l, reserved q.1 = false) :
    setGraphs (mkRegion regs n0 ins outs G) l = mkRegion regs n0 ins outs (setGs G l) := by
  induction l generalizing G with
  | nil => rfl
  | cons q l ih =>
    rw [setGraphs_cons, setGraph_mkRegion _ _ _ _ _ _ _ (h q (List.mem_cons_self ..)),
      ih _ fun q hq => h q (List.mem_cons_of_mem _ hq)]
    rfl

theorem lookup_mkRegion (regs : List Nat) (n0 : Name) (ins outs : List Nat) (G : List (Name × List Op))
    (hn : (G.map Prod.fst).Nodup) : ∀ q ∈ G, lookupGraph (mkRegion regs n0 ins outs G) q.1 = some q.2 := by
  intro q hq
  have h1 : lookupGraph (G.map fun q => Top.graph q.1 q.2) q.1 = some q.2 := by
    induction G with
    | nil => simp at hq
    | cons p G ih =>
      rw [List.map_cons, List.nodup_cons] at hn
      rw [List.map_cons, lookupGraph_cons]
      rcases List.mem_cons.1 hq with rfl | hq
      · have : lookupGraph (G.map fun q => Top.graph q.1 q.2) q.1 = none := by
          have h2 := hn.1
          clear ih hn hq
          induction G with
          | nil => rfl
          | cons x G ih =>
            rw [List.map_cons, List.mem_cons, not_or] at h2
            rw [List.map_cons, lookupGraph_cons, ih h2.2]
            simp [lookStep, Ne.symm h2.1]
        rw [this]
        simp [lookStep]
      · rw [ih hn.2 hq]
  have h2 : ∀ (a b : List Top) (n : Name) (x : List Op), lookupGraph b n = some x → lookupGraph (a ++ b) n = some x := by
    intro a b n x h
    induction a with
    | nil => exact h
    | cons t a ih => rw [List.cons_append, lookupGraph_cons, ih]
  exact h2 _ _ _ _ h1

theorem lastCall_mkRegion (regs : List Nat) (n0 : Name) (ins outs : List Nat) (G : List (Name × List Op)) :
    lastCall (mkRegion regs n0 ins outs G) = some n0 := by
  have : ∀ acc, List.foldl (fun acc t => match t with
    | .op (.call n _ _) => some n
    | _ => acc) acc (G.map fun q => Top.graph q.1 q.2) = acc := by
    induction G with
    | nil => intro acc; rfl
    | cons q G ih => intro acc; rw [List.map_cons, List.foldl_cons]; exact ih acc
  rw [lastCall, mkRegion, List.foldl_append]
  exact this _

/-- What the solver makes of a traced module. -/
structure SolvedSpec (st : Nat → Nat) (abs : Nat → Name) (m : Nat) (body : Steps) (G' : List (Name × List Op)) : Prop where
  wf : Wf ((Names.init abs).next m).1 G'
  main : (((Names.init abs).next m).1, (body.traceF st ((Names.init abs).next m).2 (fun u => uses u (body.flat st))).1
    ++ [.cfret]) ∈ G'
  subs : ∀ q ∈ (body.traceF st ((Names.init abs).next m).2 (fun u => uses u (body.flat st))).2, q ∈ G'

theorem solve_trace {st : Nat → Nat} {abs : Nat → Name} {m : Nat} {body : Steps}
    (hwf : Wf ((Names.init abs).next m).1 (graphsOf st abs m body)) (regs ins outs : List Nat) {fuel : Nat}
    (hd : body.depth ≤ fuel) :
    ∃ G', solve fuel (traceModule st abs regs m ins outs body) =
        some (mkRegion regs ((Names.init abs).next m).1 (ins.map st) (outs.map st) G') ∧
      SolvedSpec st abs m body G' := by
  rw [traceModule_eq]
  set n0 := ((Names.init abs).next m).1 with hn0
  set ns := ((Names.init abs).next m).2 with hns
  set G := graphsOf st abs m body with hG
  have hGe : G = (n0, (body.trace st ns).2.1 ++ [.cfret]) :: (body.trace st ns).2.2 := rfl
  set r := mkRegion regs n0 (ins.map st) (outs.map st) G with hr
  set cnt : Nat → Nat := fun u => uses u (body.flat st) with hcnt
  have hnd : n0 ∉ (body.trace st ns).2.2.map Prod.fst ∧ ((body.trace st ns).2.2.map Prod.fst).Nodup := by
    have := hwf.nodup
    rw [hGe, List.map_cons, List.nodup_cons] at this
    exact this
  have hlk := lookup_mkRegion regs n0 (ins.map st) (outs.map st) G hwf.nodup
  have hlk0 := hlk (n0, (body.trace st ns).2.1 ++ [.cfret]) (by rw [hGe]; exact List.mem_cons_self ..)
  have hlks : ∀ q ∈ (body.trace st ns).2.2, lookupGraph r q.1 = some q.2 :=
    fun q hq => hlk q (by rw [hGe]; exact List.mem_cons_of_mem _ hq)
  have hidx := indexOps_trace st r body ns fuel (fun _ => 0) [.cfret] hd hlks
  rw [indexOps_ret] at hidx
  have hcnt' : flatCount (fun _ => 0) (body.flat st) = cnt := by
    funext u; rw [flatCount_apply, hcnt]; simp
  rw [hcnt'] at hidx
  have hins := insertOps_trace st body ns fuel cnt [.cfret] r hd hlks hnd.2
  rw [insertOps_ret] at hins
  simp only at hins
  set l := (body.traceF st ns cnt).2 with hl
  have hperm := traceF_names st body ns cnt
  have hlres : ∀ q ∈ l, reserved q.1 = false := by
    intro q hq
    have : q.1 ∈ (body.trace st ns).2.2.map Prod.fst := hperm.mem_iff.1 (List.mem_map_of_mem hq)
    obtain ⟨q', hq', he⟩ := List.mem_map.1 this
    rw [← he]
    exact hwf.free q' (by rw [hGe]; exact List.mem_cons_of_mem _ hq')
  have h0res : reserved n0 = false := hwf.free (n0, (body.trace st ns).2.1 ++ [.cfret]) (by rw [hGe]; exact List.mem_cons_self ..)
  set b0 := (body.traceF st ns cnt).1 ++ [Op.cfret] with hb0
  refine ⟨setGs G (l ++ [(n0, b0)]), ?_, ?_⟩
  · rw [solve, lastCall_mkRegion]
    simp only
    rw [hlk0]
    simp only
    rw [hidx]
    simp only
    rw [hins]
    simp only
    rw [← setGraphs_mkRegion, setGraphs_append, setGraphs_cons]
    · rfl
    · intro q hq
      rcases List.mem_append.1 hq with hq | hq
      · exact hlres q hq
      · rw [List.mem_singleton] at hq; subst hq; exact h0res
  · have hnames := setGs_names (l ++ [(n0, b0)]) G
    have hmap : (l ++ [(n0, b0)]).map Prod.fst = l.map Prod.fst ++ [n0] := by simp
    have hnod : ((l ++ [(n0, b0)]).map Prod.fst).Nodup := by
      rw [hmap, List.nodup_append]
      refine ⟨hperm.nodup_iff.2 hnd.2, by simp, ?_⟩
      intro a ha b hb
      rw [List.mem_singleton] at hb
      rintro rfl
      subst hb
      exact hnd.1 (hperm.mem_iff.1 ha)
    have hsub : ∀ q ∈ l ++ [(n0, b0)], q.1 ∈ G.map Prod.fst := by
      intro q hq
      rw [hGe, List.map_cons]
      rcases List.mem_append.1 hq with hq | hq
      · exact List.mem_cons_of_mem _ (hperm.mem_iff.1 (List.mem_map_of_mem hq))
      · rw [List.mem_singleton] at hq; subst hq; exact List.mem_cons_self ..
    have hnew := setGs_new (l ++ [(n0, b0)]) G hnod hsub
    obtain ⟨t1, t2⟩ := traceF_ops st body ns cnt
    -- every graph of the result comes from one of the trace
    have hfrom : ∀ q ∈ setGs G (l ++ [(n0, b0)]), ∃ q' ∈ G, ∀ o ∈ q.2, o ∈ q'.2 ∨ o.isFree = true := by
      intro q hq
      rcases setGs_mem _ _ q hq with hq | hq
      · rcases List.mem_append.1 hq with hq | hq
        · obtain ⟨q', h1, _, h3⟩ := t2 q hq
          exact ⟨q', by rw [hGe]; exact List.mem_cons_of_mem _ h1, h3⟩
        · rw [List.mem_singleton] at hq; subst hq
          refine ⟨(n0, (body.trace st ns).2.1 ++ [.cfret]), by rw [hGe]; exact List.mem_cons_self .., ?_⟩
          intro o ho
          rcases List.mem_append.1 ho with ho | ho
          · rcases t1 o ho with h | h
            · exact .inl (List.mem_append_left _ h)
            · exact .inr h
          · exact .inl (List.mem_append_right _ ho)
      · exact ⟨q, hq, fun o ho => .inl ho⟩
    refine ⟨⟨by rw [hnames]; exact hwf.nodup, ?_, ?_, ?_, by rw [hnames]; exact hwf.main⟩,
      hnew _ (List.mem_append_right _ (List.mem_singleton.2 rfl)), fun q hq => hnew q (List.mem_append_left _ hq)⟩
    · intro q hq
      have : q.1 ∈ G.map Prod.fst := by rw [← hnames]; exact List.mem_map_of_mem hq
      obtain ⟨q', hq', he⟩ := List.mem_map.1 this
      rw [← he]; exact hwf.free q' hq'
    · intro q hq o ho
      obtain ⟨q', hq', h⟩ := hfrom q hq
      rcases h o ho with h | h
      · exact hwf.ops q' hq' o h
      · cases o <;> first | rfl | cases h
    · intro q hq n i u ho
      obtain ⟨q', hq', h⟩ := hfrom q hq
      rw [hnames]
      rcases h _ ho with h | h
      · exact hwf.calls q' hq' n i u h
      · cases h

/-- The solved module in execution order. -/
theorem solve_order {st : Nat → Nat} {abs : Nat → Name} {m : Nat} {body : Steps} {G' : List (Name × List Op)}
    (h : SolvedSpec st abs m body G') (regs ins outs : List Nat) {fuel : Nat} (hd : body.depth ≤ fuel) :
    order fuel (mkRegion regs ((Names.init abs).next m).1 (ins.map st) (outs.map st) G') =
      some (flatFree (body.flat st) (fun u => uses u (body.flat st))).2 := by
  have hlk := lookup_mkRegion regs ((Names.init abs).next m).1 (ins.map st) (outs.map st) G' h.wf.nodup
  rw [order, lastCall_mkRegion]
  simp only
  rw [hlk _ h.main]
  simp only
  exact inline_traceF st _ body _ fuel _ hd fun q hq => hlk q (h.subs q hq)

theorem trace_order {st : Nat → Nat} {abs : Nat → Name} {m : Nat} {body : Steps}
    (h : Wf ((Names.init abs).next m).1 (graphsOf st abs m body)) (regs ins outs : List Nat) {fuel : Nat}
    (hd : body.depth ≤ fuel) :
    order fuel (traceModule st abs regs m ins outs body) = some (body.flat st) := by
  rw [traceModule_eq]
  have hlk := lookup_mkRegion regs ((Names.init abs).next m).1 (ins.map st) (outs.map st) _ h.nodup
  rw [order, lastCall_mkRegion]
  simp only
  have hGe : graphsOf st abs m body = (((Names.init abs).next m).1, (body.trace st ((Names.init abs).next m).2).2.1 ++ [.cfret]) ::
    (body.trace st ((Names.init abs).next m).2).2.2 := rfl
  have h0 := hlk (((Names.init abs).next m).1, (body.trace st ((Names.init abs).next m).2).2.1 ++ [.cfret])
    (by rw [hGe]; exact List.mem_cons_self ..)
  rw [h0]
  simp only
  exact inline_trace st _ body _ fuel hd fun q hq => hlk q (by rw [hGe]; exact List.mem_cons_of_mem _ hq)

end Verif.Compile
