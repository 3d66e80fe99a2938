import Verif.Compile.Flat
/- The eager memory solver on traced modules (C32). -/
namespace Verif.Compile

variable {T W : Type} {S : Sem T W}

/-- The ops of a module in the order of the calls. -/
def Steps.flat (st : Nat → Nat) : Steps → List Op
  | .done => []
  | .op o ins outs rest => .linalg o (ins.map st) (outs.map st) :: rest.flat st
  | .note rest => .dbg :: rest.flat st
  | .sub _ _ _ body rest => body.flat st ++ rest.flat st

/-- Nesting of calls. -/
def Steps.depth : Steps → Nat
  | .done => 0
  | .op _ _ _ rest => rest.depth
  | .note rest => rest.depth
  | .sub _ _ _ body rest => max (body.depth + 1) rest.depth

theorem flat_plain (st : Nat → Nat) : ∀ (x : Steps), ∀ o ∈ x.flat st, o.plain = true
  | .done, o, h => by simp [Steps.flat] at h
  | .op _ _ _ rest, o, h => by
    rcases List.mem_cons.1 h with rfl | h
    · rfl
    · exact flat_plain st rest o h
  | .note rest, o, h => by
    rcases List.mem_cons.1 h with rfl | h
    · rfl
    · exact flat_plain st rest o h
  | .sub _ _ _ body rest, o, h => by
    rcases List.mem_append.1 h with h | h
    · exact flat_plain st body o h
    · exact flat_plain st rest o h

theorem flatEval_flat (st : Nat → Nat) : ∀ (x : Steps) (s : W × (Nat → T)),
    flatEval S (x.flat st) s = (x.storage st).eval S s
  | .done, s => rfl
  | .op _ _ _ rest, s => flatEval_flat st rest _
  | .note rest, s => flatEval_flat st rest s
  | .sub _ _ _ body rest, s => by
    rw [Steps.flat, flatEval_append, flatEval_flat st body, flatEval_flat st rest]; rfl

def flatCount (c : Nat → Nat) (ops : List Op) : Nat → Nat := ops.foldl (fun c o => countIns c o.reads) c

theorem flatCount_apply (ops : List Op) (c : Nat → Nat) (u : Nat) : flatCount c ops u = c u + uses u ops := by
  induction ops generalizing c with
  | nil => rfl
  | cons o ops ih =>
    have : flatCount c (o :: ops) = flatCount (countIns c o.reads) ops := rfl
    rw [this, ih, countIns_apply, uses_cons]; omega

/-! ### Counting -/

theorem indexOps_call {r : List Top} {fuel : Nat} {n : Name} {i o : List Nat} {rest : List Op} {c : Nat → Nat}
    {b : List Op} (hb : lookupGraph r n = some b) {c' : Nat → Nat} (hc : indexOps r fuel b c = some c') :
    indexOps r (fuel + 1) (.call n i o :: rest) c = indexOps r (fuel + 1) rest c' := by
  show indexStep r (indexOps r fuel) _ c = indexStep r (indexOps r fuel) _ c'
  rw [indexStep, hb]
  simp only
  rw [hc]

theorem indexOps_linalg (r : List Top) (fuel : Nat) (o : Nat) (i u : List Nat) (rest : List Op) (c : Nat → Nat) :
    indexOps r fuel (.linalg o i u :: rest) c = indexOps r fuel rest (countIns c i) := by
  cases fuel <;> rfl

theorem indexOps_dbg (r : List Top) (fuel : Nat) (rest : List Op) (c : Nat → Nat) :
    indexOps r fuel (.dbg :: rest) c = indexOps r fuel rest c := by
  cases fuel <;> rfl

theorem indexOps_ret (r : List Top) (fuel : Nat) (c : Nat → Nat) : indexOps r fuel [.cfret] c = some c := by
  cases fuel <;> rfl

theorem indexOps_trace (st : Nat → Nat) (r : List Top) : ∀ (x : Steps) (ns : Names) (fuel : Nat) (c : Nat → Nat)
    (tail : List Op), x.depth ≤ fuel → (∀ q ∈ (x.trace st ns).2.2, lookupGraph r q.1 = some q.2) →
    indexOps r fuel ((x.trace st ns).2.1 ++ tail) c = indexOps r fuel tail (flatCount c (x.flat st))
  | .done, _, _, _, _, _, _ => rfl
  | .op o i u rest, ns, fuel, c, tail, hd, hr => by
    show indexOps r fuel (.linalg o (i.map st) (u.map st) :: ((rest.trace st ns).2.1 ++ tail)) c = _
    rw [indexOps_linalg, indexOps_trace st r rest ns fuel _ tail hd hr]
    rfl
  | .note rest, ns, fuel, c, tail, hd, hr => by
    show indexOps r fuel (.dbg :: ((rest.trace st ns).2.1 ++ tail)) c = _
    rw [indexOps_dbg, indexOps_trace st r rest ns fuel _ tail hd hr]
    rfl
  | .sub m i u body rest, ns, fuel, c, tail, hd, hr => by
    rw [Steps.depth] at hd
    obtain ⟨f, rfl⟩ : ∃ f, fuel = f + 1 := ⟨fuel - 1, by omega⟩
    have hb := hr _ (List.mem_cons_self ..)
    have h1 := indexOps_trace st r body (ns.next m).2 f c [.cfret] (by omega)
      (fun q hq => hr q (List.mem_cons_of_mem _ (List.mem_append_left _ hq)))
    rw [indexOps_ret] at h1
    show indexOps r (f + 1) (.call (ns.next m).1 (i.map st) (u.map st) ::
      ((rest.trace st (body.trace st (ns.next m).2).1).2.1 ++ tail)) c = _
    rw [indexOps_call hb h1, indexOps_trace st r rest _ (f + 1) _ tail (by omega)
      (fun q hq => hr q (List.mem_cons_of_mem _ (List.mem_append_right _ hq)))]
    rw [Steps.flat, flatCount, flatCount, flatCount, List.foldl_append]

/-! ### Inserting -/

/-- The trace with frees. -/
def Steps.traceF (st : Nat → Nat) : Steps → Names → (Nat → Nat) → List Op × List (Name × List Op)
  | .done, _, _ => ([], [])
  | .op o ins outs rest, ns, c =>
    let r := rest.traceF st ns (freeIns c (ins.map st)).1
    (.linalg o (ins.map st) (outs.map st) :: ((freeIns c (ins.map st)).2 ++ r.1), r.2)
  | .note rest, ns, c =>
    let r := rest.traceF st ns c
    (.dbg :: r.1, r.2)
  | .sub m ins outs body rest, ns, c =>
    let n := ns.next m
    let b := body.traceF st n.2 c
    let r := rest.traceF st (body.trace st n.2).1 (flatFree (body.flat st) c).1
    (.call n.1 (ins.map st) (outs.map st) :: r.1, b.2 ++ (n.1, b.1 ++ [.cfret]) :: r.2)

def setGraphs (r : List Top) (l : List (Name × List Op)) : List Top :=
  l.foldl (fun r q => setGraph r q.1 q.2) r

theorem setGraphs_append (r : List Top) (a b : List (Name × List Op)) :
    setGraphs r (a ++ b) = setGraphs (setGraphs r a) b := by simp [setGraphs]

theorem setGraphs_cons (r : List Top) (q : Name × List Op) (b : List (Name × List Op)) :
    setGraphs r (q :: b) = setGraphs (setGraph r q.1 q.2) b := rfl

theorem lookupGraph_cons (t : Top) (r : List Top) (n : Name) : lookupGraph (t :: r) n =
    match lookupGraph r n with
    | some b => some b
    | none => lookStep n none t := by
  have gen : ∀ (r : List Top) (acc : Option (List Op)), r.foldl (lookStep n) acc = match lookupGraph r n with
      | some b => some b
      | none => acc := by
    intro r
    induction r with
    | nil => intro acc; rfl
    | cons t r ih =>
      intro acc
      have e1 := ih (lookStep n acc t)
      have e2 := ih (lookStep n none t)
      have e3 : lookupGraph (t :: r) n = r.foldl (lookStep n) (lookStep n none t) := rfl
      rw [List.foldl_cons, e1, e3, e2]
      cases lookupGraph r n with
      | some _ => rfl
      | none =>
        cases t with
        | graph m b => simp only [lookStep]; split_ifs <;> rfl
        | _ => rfl
  exact gen r (lookStep n none t)

theorem lookupGraph_setGraph (r : List Top) (n n' : Name) (b : List Op) (h : n' ≠ n) :
    lookupGraph (setGraph r n b) n' = lookupGraph r n' := by
  induction r with
  | nil => rfl
  | cons t r ih =>
    have this : setGraph (t :: r) n b = setTop n b t :: setGraph r n b := rfl
    rw [this, lookupGraph_cons, lookupGraph_cons, ih]
    cases lookupGraph r n' with
    | some _ => rfl
    | none =>
      cases t with
      | graph m b' =>
        by_cases e : m = n
        · subst e
          simp [Ne.symm h, setTop, lookStep]
        · simp [e, setTop]
      | _ => rfl

theorem lookupGraph_setGraph_self (r : List Top) (n : Name) (b b' : List Op) (h : lookupGraph r n = some b') :
    lookupGraph (setGraph r n b) n = some b := by
  induction r with
  | nil => cases h
  | cons t r ih =>
    have this : setGraph (t :: r) n b = setTop n b t :: setGraph r n b := rfl
    rw [this, lookupGraph_cons]
    rw [lookupGraph_cons] at h
    cases h2 : lookupGraph r n with
    | some x =>
      rw [h2] at h
      cases h
      rw [ih h2]
    | none =>
      rw [h2] at h
      have h3 : lookupGraph (setGraph r n b) n = none := by
        clear ih h this
        induction r with
        | nil => rfl
        | cons t r ih =>
          have e : setGraph (t :: r) n b = setTop n b t :: setGraph r n b := rfl
          rw [lookupGraph_cons] at h2
          rw [e, lookupGraph_cons]
          cases h4 : lookupGraph r n with
          | some y => rw [h4] at h2; cases h2
          | none =>
            rw [h4] at h2
            rw [ih h4]
            cases t with
            | graph m b' =>
              by_cases e : m = n
              · simp [e, lookStep] at h2
              · simp [e, setTop, lookStep]
            | _ => rfl
      rw [h3]
      cases t with
      | graph m b' =>
        by_cases e : m = n
        · simp [e, setTop, lookStep]
        · simp [e, lookStep] at h
      | _ => simp [lookStep] at h

theorem lookupGraph_setGraphs (l : List (Name × List Op)) (r : List Top) (n : Name) (h : n ∉ l.map Prod.fst) :
    lookupGraph (setGraphs r l) n = lookupGraph r n := by
  induction l generalizing r with
  | nil => rfl
  | cons q l ih =>
    rw [List.map_cons, List.mem_cons, not_or] at h
    rw [setGraphs_cons, ih _ h.2, lookupGraph_setGraph _ _ _ _ h.1]

theorem lookupGraph_setGraphs_mem (l : List (Name × List Op)) (r : List Top) (hn : (l.map Prod.fst).Nodup)
    (h : ∀ q ∈ l, ∃ b, lookupGraph r q.1 = some b) : ∀ q ∈ l, lookupGraph (setGraphs r l) q.1 = some q.2 := by
  induction l generalizing r with
  | nil => intro q hq; simp at hq
  | cons p l ih =>
    rw [List.map_cons, List.nodup_cons] at hn
    intro q hq
    rw [setGraphs_cons]
    rcases List.mem_cons.1 hq with rfl | hq
    · rw [lookupGraph_setGraphs _ _ _ hn.1]
      obtain ⟨b, hb⟩ := h q (List.mem_cons_self ..)
      exact lookupGraph_setGraph_self _ _ _ _ hb
    · refine ih _ hn.2 (fun q hq => ?_) q hq
      by_cases e : q.1 = p.1
      · exact absurd (e ▸ List.mem_map_of_mem hq) hn.1
      · rw [lookupGraph_setGraph _ _ _ _ e]
        exact h q (List.mem_cons_of_mem _ hq)

theorem traceF_names (st : Nat → Nat) : ∀ (x : Steps) (ns : Names) (c : Nat → Nat),
    ((x.traceF st ns c).2.map Prod.fst).Perm ((x.trace st ns).2.2.map Prod.fst)
  | .done, _, _ => .nil
  | .op _ _ _ rest, ns, c => traceF_names st rest ns _
  | .note rest, ns, c => traceF_names st rest ns _
  | .sub m _ _ body rest, ns, c => by
    have h1 := traceF_names st body (ns.next m).2 c
    have h2 := traceF_names st rest (body.trace st (ns.next m).2).1 (flatFree (body.flat st) c).1
    simp only [Steps.traceF, Steps.trace, List.map_append, List.map_cons]
    exact List.perm_middle.trans ((h1.append h2).cons _)

theorem insertOps_linalg (fuel : Nat) (o : Nat) (i u : List Nat) (rest : List Op) (c : Nat → Nat) (r : List Top) :
    insertOps fuel (.linalg o i u :: rest) c r =
      match insertOps fuel rest (freeIns c i).1 r with
      | none => none
      | some (c', rest', r') => some (c', .linalg o i u :: (freeIns c i).2 ++ rest', r') := by
  cases fuel <;> rfl

theorem insertOps_dbg (fuel : Nat) (rest : List Op) (c : Nat → Nat) (r : List Top) :
    insertOps fuel (.dbg :: rest) c r =
      match insertOps fuel rest c r with
      | none => none
      | some (c', rest', r') => some (c', .dbg :: rest', r') := by
  cases fuel <;> rfl

theorem insertOps_ret (fuel : Nat) (c : Nat → Nat) (r : List Top) :
    insertOps fuel [.cfret] c r = some (c, [.cfret], r) := by
  cases fuel <;> rfl

theorem insertOps_call {r : List Top} {fuel : Nat} {n : Name} {i o : List Nat} {rest : List Op} {c : Nat → Nat}
    {b : List Op} (hb : lookupGraph r n = some b) {c' : Nat → Nat} {b' : List Op} {r' : List Top}
    (hc : insertOps fuel b c r = some (c', b', r')) :
    insertOps (fuel + 1) (.call n i o :: rest) c r =
      match insertOps (fuel + 1) rest c' (setGraph r' n b') with
      | none => none
      | some (c'', rest', r'') => some (c'', .call n i o :: rest', r'') := by
  show insertStep (insertOps fuel) _ c r = _
  rw [insertStep, hb]
  simp only
  rw [hc]
  rfl

theorem insertOps_trace (st : Nat → Nat) : ∀ (x : Steps) (ns : Names) (fuel : Nat) (c : Nat → Nat)
    (tail : List Op) (r : List Top), x.depth ≤ fuel → (∀ q ∈ (x.trace st ns).2.2, lookupGraph r q.1 = some q.2) →
    ((x.trace st ns).2.2.map Prod.fst).Nodup →
    insertOps fuel ((x.trace st ns).2.1 ++ tail) c r =
      match insertOps fuel tail (flatFree (x.flat st) c).1 (setGraphs r (x.traceF st ns c).2) with
      | none => none
      | some (c', t', r') => some (c', (x.traceF st ns c).1 ++ t', r')
  | .done, _, fuel, c, tail, r, _, _, _ => by
    show insertOps fuel tail c r = match insertOps fuel tail c r with
      | none => none
      | some (c', t', r') => some (c', t', r')
    cases insertOps fuel tail c r <;> rfl
  | .op o i u rest, ns, fuel, c, tail, r, hd, hr, hn => by
    show insertOps fuel (.linalg o (i.map st) (u.map st) :: ((rest.trace st ns).2.1 ++ tail)) c r = _
    rw [insertOps_linalg, insertOps_trace st rest ns fuel _ tail r hd hr hn]
    simp only [Steps.flat, flatFree, Steps.traceF]
    cases insertOps fuel tail _ _ with
    | none => rfl
    | some y => simp
  | .note rest, ns, fuel, c, tail, r, hd, hr, hn => by
    show insertOps fuel (.dbg :: ((rest.trace st ns).2.1 ++ tail)) c r = _
    rw [insertOps_dbg, insertOps_trace st rest ns fuel _ tail r hd hr hn]
    simp only [Steps.flat, flatFree, Steps.traceF]
    cases insertOps fuel tail _ _ with
    | none => rfl
    | some y => simp
  | .sub m i u body rest, ns, fuel, c, tail, r, hd, hr, hn => by
    rw [Steps.depth] at hd
    obtain ⟨f, rfl⟩ : ∃ f, fuel = f + 1 := ⟨fuel - 1, by omega⟩
    have hb := hr _ (List.mem_cons_self ..)
    have hn' : (ns.next m).1 ∉ (body.trace st (ns.next m).2).2.2.map Prod.fst ++
        (rest.trace st (body.trace st (ns.next m).2).1).2.2.map Prod.fst ∧
        ((body.trace st (ns.next m).2).2.2.map Prod.fst ++
        (rest.trace st (body.trace st (ns.next m).2).1).2.2.map Prod.fst).Nodup := by
      simpa [Steps.trace] using hn
    obtain ⟨hn1, hn2⟩ := hn'
    obtain ⟨hn3, hn4, hn5⟩ := List.nodup_append.1 hn2
    have h1 := insertOps_trace st body (ns.next m).2 f c [.cfret] r (by omega)
      (fun q hq => hr q (List.mem_cons_of_mem _ (List.mem_append_left _ hq))) hn3
    rw [insertOps_ret] at h1
    simp only at h1
    show insertOps (f + 1) (.call (ns.next m).1 (i.map st) (u.map st) ::
      ((rest.trace st (body.trace st (ns.next m).2).1).2.1 ++ tail)) c r = _
    rw [insertOps_call hb h1, insertOps_trace st rest _ (f + 1) _ tail _ (by omega) ?_ hn4]
    · have e1 : (flatFree ((Steps.sub m i u body rest).flat st) c).1 =
          (flatFree (rest.flat st) (flatFree (body.flat st) c).1).1 := by
        rw [Steps.flat, flatFree_append]
      have e2 : setGraphs r ((Steps.sub m i u body rest).traceF st ns c).2 =
          setGraphs (setGraph (setGraphs r (body.traceF st (ns.next m).2 c).2) (ns.next m).1
            ((body.traceF st (ns.next m).2 c).1 ++ [.cfret]))
            (rest.traceF st (body.trace st (ns.next m).2).1 (flatFree (body.flat st) c).1).2 := by
        simp only [Steps.traceF]
        rw [setGraphs_append, setGraphs_cons]
      rw [e1, e2]
      cases insertOps (f + 1) tail _ _ with
      | none => rfl
      | some y => simp [Steps.traceF]
    · intro q hq
      have hq1 : q.1 ∈ (rest.trace st (body.trace st (ns.next m).2).1).2.2.map Prod.fst := List.mem_map_of_mem hq
      rw [lookupGraph_setGraph, lookupGraph_setGraphs]
      · exact hr q (List.mem_cons_of_mem _ (List.mem_append_right _ hq))
      · intro hc
        exact hn5 _ ((traceF_names st body _ c).mem_iff.1 hc) _ hq1 rfl
      · rintro e
        exact hn1 (List.mem_append_right _ (e ▸ hq1))

/-! ### The graphs after solving -/

theorem traceF_ops (st : Nat → Nat) : ∀ (x : Steps) (ns : Names) (c : Nat → Nat),
    (∀ o ∈ (x.traceF st ns c).1, o ∈ (x.trace st ns).2.1 ∨ o.isFree = true) ∧
    ∀ q ∈ (x.traceF st ns c).2, ∃ q' ∈ (x.trace st ns).2.2, q'.1 = q.1 ∧
      ∀ o ∈ q.2, o ∈ q'.2 ∨ o.isFree = true
  | .done, _, _ => by simp [Steps.traceF]
  | .op o i u rest, ns, c => by
    obtain ⟨h1, h2⟩ := traceF_ops st rest ns (freeIns c (i.map st)).1
    refine ⟨?_, h2⟩
    intro a ha
    rcases List.mem_cons.1 ha with rfl | ha
    · exact .inl (List.mem_cons_self ..)
    · rcases List.mem_append.1 ha with ha | ha
      · right
        have gen : ∀ (l : List Nat) (s : (Nat → Nat) × List Op), (∀ o ∈ s.2, o.isFree = true) →
            ∀ o ∈ (l.foldl freeStep s).2, o.isFree = true := by
          intro l
          induction l with
          | nil => intro s hs; exact hs
          | cons v l ih =>
            intro s hs
            refine ih _ ?_
            intro o ho
            unfold freeStep at ho
            simp only at ho
            split_ifs at ho
            · rcases List.mem_cons.1 ho with rfl | ho
              · rfl
              · exact hs o ho
            · exact hs o ho
        exact gen _ (c, []) (by simp) a ha
      · rcases h1 a ha with h | h
        · exact .inl (List.mem_cons_of_mem _ h)
        · exact .inr h
  | .note rest, ns, c => by
    obtain ⟨h1, h2⟩ := traceF_ops st rest ns c
    refine ⟨?_, h2⟩
    intro a ha
    rcases List.mem_cons.1 ha with rfl | ha
    · exact .inl (List.mem_cons_self ..)
    · rcases h1 a ha with h | h
      · exact .inl (List.mem_cons_of_mem _ h)
      · exact .inr h
  | .sub m i u body rest, ns, c => by
    obtain ⟨b1, b2⟩ := traceF_ops st body (ns.next m).2 c
    obtain ⟨h1, h2⟩ := traceF_ops st rest (body.trace st (ns.next m).2).1 (flatFree (body.flat st) c).1
    refine ⟨?_, ?_⟩
    · intro a ha
      rcases List.mem_cons.1 ha with rfl | ha
      · exact .inl (List.mem_cons_self ..)
      · rcases h1 a ha with h | h
        · exact .inl (List.mem_cons_of_mem _ h)
        · exact .inr h
    · intro q hq
      simp only [Steps.traceF] at hq
      rcases List.mem_append.1 hq with hq | hq
      · obtain ⟨q', h3, h4⟩ := b2 q hq
        exact ⟨q', List.mem_cons_of_mem _ (List.mem_append_left _ h3), h4⟩
      · rcases List.mem_cons.1 hq with rfl | hq
        · refine ⟨_, List.mem_cons_self .., rfl, ?_⟩
          intro o ho
          rcases List.mem_append.1 ho with ho | ho
          · rcases b1 o ho with h | h
            · exact .inl (List.mem_append_left _ h)
            · exact .inr h
          · exact .inl (List.mem_append_right _ ho)
        · obtain ⟨q', h3, h4⟩ := h2 q hq
          exact ⟨q', List.mem_cons_of_mem _ (List.mem_append_right _ h3), h4⟩

theorem Exec.frees {G : List (Name × List Op)} {F rest : List Op} (h : ∀ o ∈ F, o.isFree = true)
    {s s' : W × (Nat → T)} (hr : Exec S G rest (flatEval S F s) s') : Exec S G (F ++ rest) s s' := by
  induction F generalizing s with
  | nil => exact hr
  | cons o F ih =>
    cases o with
    | tfree u => exact .tfree (ih (fun o ho => h o (by simp [ho])) hr)
    | _ => exact absurd (h _ (List.mem_cons_self ..)) (by simp [Op.isFree])

theorem freeIns_isFree (c : Nat → Nat) (ins : List Nat) : ∀ o ∈ (freeIns c ins).2, o.isFree = true := by
  have := (traceF_ops id (.op 0 ins [] .done) ⟨fun _ => 0, fun _ => []⟩ c).1
  intro o ho
  rcases this o (List.mem_cons_of_mem _ (List.mem_append_left _ (by simpa using ho))) with h | h
  · simp [Steps.trace] at h
    subst h
    exfalso
    have gen : ∀ (l : List Nat) (s : (Nat → Nat) × List Op), (∀ o ∈ s.2, o.isFree = true) →
        ∀ o ∈ (l.foldl freeStep s).2, o.isFree = true := by
      intro l
      induction l with
      | nil => intro s hs; exact hs
      | cons v l ih =>
        intro s hs
        refine ih _ ?_
        intro o ho
        unfold freeStep at ho
        simp only at ho
        split_ifs at ho
        · rcases List.mem_cons.1 ho with rfl | ho
          · rfl
          · exact hs o ho
        · exact hs o ho
    have := gen ins (c, []) (by simp) _ ho
    cases this
  · exact h

theorem traceF_exec (st : Nat → Nat) (G : List (Name × List Op)) : ∀ (x : Steps) (ns : Names) (c : Nat → Nat)
    (s : W × (Nat → T)), (∀ q ∈ (x.traceF st ns c).2, q ∈ G) →
    Exec S G (x.traceF st ns c).1 s (flatEval S (flatFree (x.flat st) c).2 s)
  | .done, _, _, s, _ => .nil s
  | .op o i u rest, ns, c, s, h => by
    rw [Steps.flat, flatFree, List.cons_append, flatEval, flatEval_append]
    exact .linalg (Exec.frees (freeIns_isFree _ _) (traceF_exec st G rest ns _ _ h))
  | .note rest, ns, c, s, h => .dbg (traceF_exec st G rest ns c _ h)
  | .sub m i u body rest, ns, c, s, h => by
    rw [Steps.flat, flatFree_append, flatEval_append]
    refine .call (b := (body.traceF st (ns.next m).2 c).1)
      (s1 := flatEval S (flatFree (body.flat st) c).2 s) (h _ (by simp [Steps.traceF])) ?_ ?_
    · exact traceF_exec st G body _ c s fun q hq => h q (by simp [Steps.traceF, hq])
    · exact traceF_exec st G rest _ _ _ fun q hq => h q (by simp [Steps.traceF, hq])

/-- Execution order of the solved graphs. -/
theorem inline_traceF (st : Nat → Nat) (r : List Top) : ∀ (x : Steps) (ns : Names) (fuel : Nat) (c : Nat → Nat),
    x.depth ≤ fuel → (∀ q ∈ (x.traceF st ns c).2, lookupGraph r q.1 = some q.2) →
    inlineOps r fuel ((x.traceF st ns c).1 ++ [.cfret]) = some (flatFree (x.flat st) c).2
  | .done, _, fuel, _, _, _ => by cases fuel <;> rfl
  | .op o i u rest, ns, fuel, c, hd, hr => by
    have ih := inline_traceF st r rest ns fuel (freeIns c (i.map st)).1 hd hr
    have fr : ∀ (F : List Op), (∀ o ∈ F, o.isFree = true) → ∀ (b y : List Op), inlineOps r fuel b = some y →
        inlineOps r fuel (F ++ b) = some (F ++ y) := by
      intro F
      induction F with
      | nil => intro _ b y h; exact h
      | cons f F ihF =>
        intro hF b y h
        have h1 := ihF (fun o ho => hF o (by simp [ho])) b y h
        cases f with
        | tfree v =>
          have : ∀ z, inlineOps r fuel (.tfree v :: z) = match inlineOps r fuel z with
            | none => none
            | some y => some (.tfree v :: y) := by intro z; cases fuel <;> rfl
          rw [List.cons_append, this, h1]; rfl
        | _ => exact absurd (hF _ (List.mem_cons_self ..)) (by simp [Op.isFree])
    have : ∀ z, inlineOps r fuel (.linalg o (i.map st) (u.map st) :: z) = match inlineOps r fuel z with
      | none => none
      | some y => some (.linalg o (i.map st) (u.map st) :: y) := by intro z; cases fuel <;> rfl
    simp only [Steps.traceF, Steps.flat, flatFree, List.cons_append, List.append_assoc]
    rw [this, fr _ (freeIns_isFree _ _) _ _ ih]
  | .note rest, ns, fuel, c, hd, hr => by
    have ih := inline_traceF st r rest ns fuel c hd hr
    have : ∀ z, inlineOps r fuel (.dbg :: z) = match inlineOps r fuel z with
      | none => none
      | some y => some (.dbg :: y) := by intro z; cases fuel <;> rfl
    simp only [Steps.traceF, Steps.flat, flatFree, List.cons_append]
    rw [this, ih]
  | .sub m i u body rest, ns, fuel, c, hd, hr => by
    rw [Steps.depth] at hd
    obtain ⟨f, rfl⟩ : ∃ f, fuel = f + 1 := ⟨fuel - 1, by omega⟩
    have hr' : ∀ q ∈ (body.traceF st (ns.next m).2 c).2 ++ ((ns.next m).1, (body.traceF st (ns.next m).2 c).1 ++ [.cfret]) ::
      (rest.traceF st (body.trace st (ns.next m).2).1 (flatFree (body.flat st) c).1).2,
      lookupGraph r q.1 = some q.2 := hr
    have h0 := hr' ((ns.next m).1, (body.traceF st (ns.next m).2 c).1 ++ [.cfret]) (by simp)
    have h1 := inline_traceF st r body (ns.next m).2 f c (by omega) fun q hq => hr' q (by simp [hq])
    have h2 := inline_traceF st r rest (body.trace st (ns.next m).2).1 (f + 1) (flatFree (body.flat st) c).1
      (by omega) fun q hq => hr' q (by simp [hq])
    have e : ∀ z, inlineOps r (f + 1) (.call (ns.next m).1 (i.map st) (u.map st) :: z) =
        match lookupGraph r (ns.next m).1 with
        | none => none
        | some b => match inlineOps r f b, inlineOps r (f + 1) z with
          | some x, some y => some (x ++ y)
          | _, _ => none := by intro z; rfl
    simp only [Steps.traceF, List.cons_append]
    rw [e, h0]
    simp only
    rw [h1, h2, Steps.flat, flatFree_append]

theorem inline_trace (st : Nat → Nat) (r : List Top) : ∀ (x : Steps) (ns : Names) (fuel : Nat),
    x.depth ≤ fuel → (∀ q ∈ (x.trace st ns).2.2, lookupGraph r q.1 = some q.2) →
    inlineOps r fuel ((x.trace st ns).2.1 ++ [.cfret]) = some (x.flat st)
  | .done, _, fuel, _, _ => by cases fuel <;> rfl
  | .op o i u rest, ns, fuel, hd, hr => by
    have ih := inline_trace st r rest ns fuel hd hr
    have : ∀ z, inlineOps r fuel (.linalg o (i.map st) (u.map st) :: z) = match inlineOps r fuel z with
      | none => none
      | some y => some (.linalg o (i.map st) (u.map st) :: y) := by intro z; cases fuel <;> rfl
    simp only [Steps.trace, Steps.flat, List.cons_append]
    rw [this, ih]
  | .note rest, ns, fuel, hd, hr => by
    have ih := inline_trace st r rest ns fuel hd hr
    have : ∀ z, inlineOps r fuel (.dbg :: z) = match inlineOps r fuel z with
      | none => none
      | some y => some (.dbg :: y) := by intro z; cases fuel <;> rfl
    simp only [Steps.trace, Steps.flat, List.cons_append]
    rw [this, ih]
  | .sub m i u body rest, ns, fuel, hd, hr => by
    rw [Steps.depth] at hd
    obtain ⟨f, rfl⟩ : ∃ f, fuel = f + 1 := ⟨fuel - 1, by omega⟩
    have h0 := hr _ (List.mem_cons_self ..)
    have h1 := inline_trace st r body (ns.next m).2 f (by omega) fun q hq =>
      hr q (List.mem_cons_of_mem _ (List.mem_append_left _ hq))
    have h2 := inline_trace st r rest (body.trace st (ns.next m).2).1 (f + 1) (by omega) fun q hq =>
      hr q (List.mem_cons_of_mem _ (List.mem_append_right _ hq))
    have e : ∀ z, inlineOps r (f + 1) (.call (ns.next m).1 (i.map st) (u.map st) :: z) =
        match lookupGraph r (ns.next m).1 with
        | none => none
        | some b => match inlineOps r f b, inlineOps r (f + 1) z with
          | some x, some y => some (x ++ y)
          | _, _ => none := by intro z; rfl
    simp only [Steps.trace, List.cons_append]
    rw [e, h0]
    simp only
    rw [h1, h2, Steps.flat]

end Verif.Compile
