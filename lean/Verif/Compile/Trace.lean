import Verif.Compile.Run
/- Compiled traces (C46, C47): a module that compiles has distinct names. -/
namespace Verif.Compile

variable {T W : Type} {S : Sem T W}

/-- The graphs of a traced module. -/
def graphsOf (st : Nat → Nat) (abs : Nat → Name) (m : Nat) (body : Steps) : List (Name × List Op) :=
  let n := (Names.init abs).next m
  let b := body.trace st n.2
  (n.1, b.2.1 ++ [.cfret]) :: b.2.2

theorem traceModule_eq (st : Nat → Nat) (abs : Nat → Name) (regs : List Nat) (m : Nat) (ins outs : List Nat)
    (body : Steps) : traceModule st abs regs m ins outs body =
      mkRegion regs ((Names.init abs).next m).1 (ins.map st) (outs.map st) (graphsOf st abs m body) := by
  simp [traceModule, mkRegion, graphsOf]

/-- A reserved name among the graphs is called from a graph that is not reserved, or from the body itself. -/
theorem reserved_called (st : Nat → Nat) : ∀ (x : Steps) (ns : Names) (q : Name × List Op),
    q ∈ (x.trace st ns).2.2 → reserved q.1 = true →
    ∃ n i o, reserved n = true ∧ (Op.call n i o ∈ (x.trace st ns).2.1 ∨
      ∃ q' ∈ (x.trace st ns).2.2, reserved q'.1 = false ∧ Op.call n i o ∈ q'.2)
  | .done, ns, q, h, _ => by simp [Steps.trace] at h
  | .op o ins outs rest, ns, q, h, hr => by
    obtain ⟨n, i, u, h1, h2 | h2⟩ := reserved_called st rest ns q h hr
    · exact ⟨n, i, u, h1, .inl (List.mem_cons_of_mem _ h2)⟩
    · exact ⟨n, i, u, h1, .inr h2⟩
  | .note rest, ns, q, h, hr => by
    obtain ⟨n, i, u, h1, h2 | h2⟩ := reserved_called st rest ns q h hr
    · exact ⟨n, i, u, h1, .inl (List.mem_cons_of_mem _ h2)⟩
    · exact ⟨n, i, u, h1, .inr h2⟩
  | .sub m ins outs body rest, ns, q, h, hr => by
    by_cases hn : reserved (ns.next m).1 = true
    · exact ⟨_, _, _, hn, .inl (List.mem_cons_self ..)⟩
    · have hn' : reserved (ns.next m).1 = false := by simpa using hn
      simp only [Steps.trace] at h ⊢
      rcases List.mem_cons.1 h with rfl | h
      · exact absurd hr hn
      · rcases List.mem_append.1 h with h | h
        · obtain ⟨n, i, u, h1, h2 | ⟨q', h2, h3, h4⟩⟩ := reserved_called st body _ q h hr
          · exact ⟨n, i, u, h1, .inr ⟨_, List.mem_cons_self .., hn', List.mem_append_left _ h2⟩⟩
          · exact ⟨n, i, u, h1, .inr ⟨q', List.mem_cons_of_mem _ (List.mem_append_left _ h2), h3, h4⟩⟩
        · obtain ⟨n, i, u, h1, h2 | ⟨q', h2, h3, h4⟩⟩ := reserved_called st rest _ q h hr
          · exact ⟨n, i, u, h1, .inl (List.mem_cons_of_mem _ h2)⟩
          · exact ⟨n, i, u, h1, .inr ⟨q', List.mem_cons_of_mem _ (List.mem_append_right _ h2), h3, h4⟩⟩

theorem graphs_ops (st : Nat → Nat) (abs : Nat → Name) (m : Nat) (body : Steps) :
    (∀ q ∈ graphsOf st abs m body, ∀ o ∈ q.2, o.isGraph = true) ∧
    (∀ q ∈ graphsOf st abs m body, ∀ n i o, Op.call n i o ∈ q.2 → n ∈ (graphsOf st abs m body).map Prod.fst) ∧
    ((Names.init abs).next m).1 ∈ (graphsOf st abs m body).map Prod.fst := by
  obtain ⟨h1, h2, h3, h4⟩ := trace_ops st body ((Names.init abs).next m).2
  refine ⟨?_, ?_, by simp [graphsOf]⟩
  · intro q hq o ho
    simp only [graphsOf] at hq
    rcases List.mem_cons.1 hq with rfl | hq
    · rcases List.mem_append.1 ho with ho | ho
      · exact h1 o ho
      · rw [List.mem_singleton] at ho; subst ho; rfl
    · exact h2 q hq o ho
  · intro q hq n i u ho
    simp only [graphsOf] at hq ⊢
    refine List.mem_cons_of_mem _ ?_
    rcases List.mem_cons.1 hq with rfl | hq
    · rcases List.mem_append.1 ho with ho | ho
      · exact h3 n i u ho
      · rw [List.mem_singleton] at ho; cases ho
    · exact h4 q hq n i u ho

/-- A traced module that compiles is well formed. -/
theorem wf_of_index {n0 : Name} {G : List (Name × List Op)} {ins outs : List Nat} {pre : List Op}
    {p : List (Nat × Instr)} (hpre : labels pre = [])
    (hp : index (pre ++ (header n0 ins outs ++ blocks (G.filter fun q => !reserved q.1))) = some p)
    (hops : ∀ q ∈ G, ∀ o ∈ q.2, o.isGraph = true)
    (hcalls : ∀ q ∈ G, ∀ n i o, Op.call n i o ∈ q.2 → n ∈ G.map Prod.fst) (hmain : n0 ∈ G.map Prod.fst)
    (hres : (∃ q ∈ G, reserved q.1 = true) → reserved n0 = true ∨ ∃ n i o, reserved n = true ∧
      ∃ q ∈ G, reserved q.1 = false ∧ Op.call n i o ∈ q.2) : Wf n0 G := by
  obtain ⟨h1, h2⟩ := index_some hp
  have hl : labels (pre ++ (header n0 ins outs ++ blocks (G.filter fun q => !reserved q.1))) =
      (G.filter fun q => !reserved q.1).map fun q => entry q.1 := by
    rw [labels_append, labels_append, hpre, labels_header, labels_blocks]
    · rfl
    · intro q hq; exact hops q (List.mem_filter.1 hq).1
  rw [hl] at h1 h2
  have key : ∀ n, reserved n = true → entry n ∉ (G.filter fun q => !reserved q.1).map fun q => entry q.1 := by
    intro n hn hmem
    obtain ⟨q, hq, he⟩ := List.mem_map.1 hmem
    have := (List.mem_filter.1 hq).2
    rw [entry_inj he, hn] at this
    cases this
  have hfree : ∀ q ∈ G, reserved q.1 = false := by
    by_contra hc
    push Not at hc
    obtain ⟨q, hq, hr⟩ := hc
    have hr' : reserved q.1 = true := by simpa using hr
    rcases hres ⟨q, hq, hr'⟩ with hn | ⟨n, i, o, hn, q', hq', hr2, hcall⟩
    · refine key n0 hn (h2 _ ?_)
      simp [header]
    · refine key n hn (h2 _ ?_)
      refine List.mem_append_right _ (List.mem_append_right _ ?_)
      rw [blocks, List.mem_flatMap]
      refine ⟨q', List.mem_filter.2 ⟨hq', by simp [hr2]⟩, List.mem_cons_of_mem _ ?_⟩
      exact List.mem_map.2 ⟨_, hcall, rfl⟩
  have hf : (G.filter fun q => !reserved q.1) = G := List.filter_eq_self.2 fun q hq => by simp [hfree q hq]
  rw [hf] at h1
  refine ⟨?_, hfree, hops, hcalls, hmain⟩
  have : (G.map fun q => entry q.1) = (G.map Prod.fst).map entry := by simp
  rw [this] at h1
  exact h1.of_map _

theorem wf_of_compile {st : Nat → Nat} {abs : Nat → Name} {regs : List Nat} {m : Nat} {ins outs : List Nat}
    {body : Steps} {eager : Bool} {p : List (Nat × Instr)}
    (h : compile eager (traceModule st abs regs m ins outs body) = some p) :
    Wf ((Names.init abs).next m).1 (graphsOf st abs m body) := by
  rw [traceModule_eq, compile, lower_filter] at h
  simp only at h
  obtain ⟨g1, g2, g3⟩ := graphs_ops st abs m body
  refine wf_of_index (pre := if eager then [Op.mode] else []) (ins := ins.map st) (outs := outs.map st) (p := p)
    (by cases eager <;> rfl) (by rw [← h]; cases eager <;> rfl) g1 g2 g3 ?_
  rintro ⟨q, hq, hr⟩
  by_cases hn : reserved ((Names.init abs).next m).1 = true
  · exact .inl hn
  · right
    have hn' : reserved ((Names.init abs).next m).1 = false := by simpa using hn
    simp only [graphsOf] at hq ⊢
    rcases List.mem_cons.1 hq with rfl | hq
    · exact absurd hr hn
    · obtain ⟨n, i, u, h1, h2 | ⟨q', h2, h3, h4⟩⟩ := reserved_called st body _ q hq hr
      · exact ⟨n, i, u, h1, _, List.mem_cons_self .., hn', List.mem_append_left _ h2⟩
      · exact ⟨n, i, u, h1, q', List.mem_cons_of_mem _ h2, h3, h4⟩

/-! ### Tensors and their storage -/

/-- The tensor written last in each storage. -/
def writes (st : Nat → Nat) (l : Nat → Option Nat) (vs : List Nat) : Nat → Option Nat :=
  vs.foldl (fun l v => Function.update l (st v) (some v)) l

/-- Every tensor that an op reads is the one written last in its storage (no other view of the storage came
after it); the tensors written last after the calls. -/
def Steps.fresh (st : Nat → Nat) : Steps → (Nat → Option Nat) → Option (Nat → Option Nat)
  | .done, l => some l
  | .op _ ins outs rest, l =>
    if ∀ v ∈ ins, l (st v) = some v then rest.fresh st (writes st l outs) else none
  | .note rest, l => rest.fresh st l
  | .sub _ _ _ body rest, l =>
    match body.fresh st l with
    | none => none
    | some l' => rest.fresh st l'

/-- Kernels return as many tensors as their calls expect. -/
def Steps.arity (S : Sem T W) : Steps → Prop
  | .done => True
  | .op o ins outs rest => (∀ w xs, xs.length = ins.length → (S.exec o w xs).2.length = outs.length) ∧ rest.arity S
  | .note rest => rest.arity S
  | .sub _ _ _ body rest => body.arity S ∧ rest.arity S

/-- The two environments agree on the tensors written last. -/
def Sim (st : Nat → Nat) (l : Nat → Option Nat) (env cenv : Nat → T) : Prop :=
  ∀ u v, l u = some v → st v = u ∧ cenv u = env v

theorem Sim.assign {st : Nat → Nat} {l : Nat → Option Nat} {env cenv : Nat → T} (h : Sim st l env cenv)
    (vs : List Nat) (xs : List T) (hl : xs.length = vs.length) :
    Sim st (writes st l vs) (assign env vs xs) (assign cenv (vs.map st) xs) := by
  induction vs generalizing l env cenv xs with
  | nil => exact h
  | cons v vs ih =>
    cases xs with
    | nil => cases hl
    | cons t xs =>
      rw [List.map_cons, assign_cons, assign_cons]
      refine ih (l := Function.update l (st v) (some v)) ?_ xs (by simpa using hl)
      intro u v' hv
      by_cases hu : u = st v
      · subst hu
        simp only [Function.update_self] at hv
        cases hv
        simp
      · rw [Function.update_of_ne hu] at hv
        obtain ⟨h1, h2⟩ := h u v' hv
        refine ⟨h1, ?_⟩
        rw [Function.update_of_ne hu, h2, Function.update_of_ne]
        rintro rfl
        exact hu h1.symm

theorem eval_storage {st : Nat → Nat} : ∀ (x : Steps) {l l' : Nat → Option Nat} {s cs : W × (Nat → T)},
    x.arity S → x.fresh st l = some l' → s.1 = cs.1 → Sim st l s.2 cs.2 →
    (x.eval S s).1 = ((x.storage st).eval S cs).1 ∧ Sim st l' (x.eval S s).2 ((x.storage st).eval S cs).2
  | .done, l, l', s, cs, _, hf, hw, hs => by cases hf; exact ⟨hw, hs⟩
  | .op o ins outs rest, l, l', s, cs, ha, hf, hw, hs => by
    rw [Steps.fresh] at hf
    split_ifs at hf with hi
    have hxs : (ins.map st).map cs.2 = ins.map s.2 := by
      rw [List.map_map]
      exact List.map_congr_left fun v hv => (hs _ _ (hi v hv)).2
    refine eval_storage rest ha.2 hf ?_ ?_
    · show (S.exec o s.1 (ins.map s.2)).1 = (S.exec o cs.1 ((ins.map st).map cs.2)).1
      rw [hxs, hw]
    · show Sim st _ (Compile.assign s.2 outs (S.exec o s.1 (ins.map s.2)).2)
        (Compile.assign cs.2 (outs.map st) (S.exec o cs.1 ((ins.map st).map cs.2)).2)
      rw [hxs, ← hw]
      exact hs.assign outs _ (ha.1 _ _ (by simp))
  | .note rest, l, l', s, cs, ha, hf, hw, hs => eval_storage rest (l := l) ha hf hw hs
  | .sub m ins outs body rest, l, l', s, cs, ha, hf, hw, hs => by
    rw [Steps.fresh] at hf
    cases hb : body.fresh st l with
    | none => rw [hb] at hf; cases hf
    | some l1 =>
      rw [hb] at hf
      obtain ⟨h1, h2⟩ := eval_storage body ha.1 hb hw hs
      exact eval_storage rest ha.2 hf h1 h2

end Verif.Compile
