import Verif.Compile.Lower
/- Running compiled modules (C46): binds, the run of a module, traces. -/
namespace Verif.Compile

variable {T W : Type} {S : Sem T W} {p : List (Nat × Instr)} {inputs : List T} {code : List Op}

theorem assign_cons (env : Nat → T) (u : Nat) (us : List Nat) (t : T) (ts : List T) :
    assign env (u :: us) (t :: ts) = assign (Function.update env u t) us ts := rfl

theorem assign_nil (env : Nat → T) (ts : List T) : assign env [] ts = env := rfl

theorem assign_append (env : Nat → T) (us us' : List Nat) (ts ts' : List T) (h : us.length = ts.length) :
    assign env (us ++ us') (ts ++ ts') = assign (assign env us ts) us' ts' := by
  unfold assign
  rw [List.zip_append h, List.foldl_append]

theorem run_inputs (hp : index code = some p) :
    ∀ (ins : List Nat) (j : Nat) (pre post : List Op) (mc : Machine T W),
      code = pre ++ (ins.zipIdx j).map (fun q => Op.bind q.2 q.1 true) ++ post → 0 < plen post →
      mc.pc = plen pre → mc.halted = false → inputs.length = j + ins.length →
      ∃ k, steps S p inputs k mc =
        { mc with pc := plen pre + ins.length, env := assign mc.env ins (inputs.drop j) } := by
  obtain ⟨m, hm⟩ := index_labels hp
  intro ins
  induction ins with
  | nil =>
    intro j pre post mc _ _ hpc _ _
    exact ⟨0, by simp [steps, assign_nil, ← hpc]⟩
  | cons u ins ih =>
    intro j pre post mc hc hpost hpc hh hin
    rw [List.length_cons] at hin
    have hj : j < inputs.length := by omega
    have hc' : code = pre ++ Op.bind j u true :: ((ins.zipIdx (j + 1)).map (fun q => Op.bind q.2 q.1 true) ++ post) := by
      rw [hc]; simp
    have hl : plen code = plen pre + 1 + plen ((ins.zipIdx (j + 1)).map (fun q => Op.bind q.2 q.1 true)) + plen post := by
      rw [hc', plen_append, plen_cons, plen_append]
      simp [Op.isProgram]
      omega
    have hs : step S p inputs mc = { mc with env := Function.update mc.env u inputs[j], pc := mc.pc + 1 } := by
      refine step_at (S := S) (inputs := inputs) (i := .bind j u true) hp hc' rfl hm rfl hpc hh ?_ (.inr ?_)
      · simp [execInstr, hj]
      · show mc.pc + 1 < plen code
        omega
    have e0 : plen (pre ++ [Op.bind j u true]) = plen pre + 1 := by rw [plen_append]; rfl
    obtain ⟨k, hk⟩ := ih (j + 1) (pre ++ [Op.bind j u true]) post (step S p inputs mc) (by rw [hc']; simp) hpost
      (by rw [hs, e0, ← hpc]) (by rw [hs]; exact hh) (by omega)
    refine ⟨k + 1, ?_⟩
    rw [steps_succ, hk, hs, e0]
    have e1 : inputs.drop j = inputs[j] :: inputs.drop (j + 1) := List.drop_eq_getElem_cons hj
    rw [e1, assign_cons, List.length_cons]
    congr 1
    omega

/-- The effect of the output binds. -/
def setOuts (nil : T) (env : Nat → T) (l : List (Nat × Nat)) (o : List T) : List T :=
  l.foldl (fun o q => setOut nil o q.2 (env q.1)) o

theorem run_outputs (hp : index code = some p) :
    ∀ (l : List (Nat × Nat)) (pre post : List Op) (mc : Machine T W),
      code = pre ++ l.map (fun q => Op.bind q.2 q.1 false) ++ post → 0 < plen post →
      mc.pc = plen pre → mc.halted = false →
      ∃ k, steps S p inputs k mc =
        { mc with pc := plen pre + l.length, outs := setOuts S.nil mc.env l mc.outs } := by
  obtain ⟨m, hm⟩ := index_labels hp
  intro l
  induction l with
  | nil =>
    intro pre post mc _ _ hpc _
    exact ⟨0, by simp [steps, setOuts, ← hpc]⟩
  | cons q l ih =>
    intro pre post mc hc hpost hpc hh
    have hc' : code = pre ++ Op.bind q.2 q.1 false :: (l.map (fun q => Op.bind q.2 q.1 false) ++ post) := by
      rw [hc]; simp
    have hl : plen code = plen pre + 1 + plen (l.map (fun q => Op.bind q.2 q.1 false)) + plen post := by
      rw [hc', plen_append, plen_cons, plen_append]
      simp [Op.isProgram]
      omega
    have hs : step S p inputs mc = { mc with outs := setOut S.nil mc.outs q.2 (mc.env q.1), pc := mc.pc + 1 } := by
      refine step_at (S := S) (inputs := inputs) (i := .bind q.2 q.1 false) hp hc' rfl hm rfl hpc hh rfl (.inr ?_)
      show mc.pc + 1 < plen code
      omega
    have e0 : plen (pre ++ [Op.bind q.2 q.1 false]) = plen pre + 1 := by rw [plen_append]; rfl
    obtain ⟨k, hk⟩ := ih (pre ++ [Op.bind q.2 q.1 false]) post (step S p inputs mc) (by rw [hc']; simp) hpost
      (by rw [hs, e0, ← hpc]) (by rw [hs]; exact hh)
    refine ⟨k + 1, ?_⟩
    rw [steps_succ, hk, hs, e0, List.length_cons]
    have e1 : plen pre + 1 + l.length = plen pre + (l.length + 1) := by omega
    rw [e1]
    rfl

theorem setOuts_aux (nil : T) (env : Nat → T) (a : List Nat) : ∀ o : List T, a.length ≤ o.length →
    setOuts nil env a.zipIdx.reverse o = a.map env ++ o.drop a.length := by
  induction a using List.reverseRecOn with
  | nil => intro o _; simp [setOuts]
  | append_singleton c y ih =>
    intro o ho
    rw [List.length_append, List.length_singleton] at ho
    have e : (c ++ [y]).zipIdx.reverse = (y, c.length) :: c.zipIdx.reverse := by
      rw [List.zipIdx_append]; simp
    rw [e, setOuts, List.foldl_cons]
    have e1 : setOut nil o c.length (env y) = o.set c.length (env y) := by
      rw [setOut, if_neg (by omega)]
    simp only [e1]
    have := ih (o.set c.length (env y)) (by simp; omega)
    rw [setOuts] at this
    rw [this]
    have e2 : (o.set c.length (env y)).drop c.length = env y :: o.drop (c.length + 1) := by
      rw [List.drop_eq_getElem_cons (by simp; omega)]
      simp only [List.getElem_set_self]
      rw [List.drop_set_of_lt (by omega)]
    rw [e2]
    simp

/-- The output binds leave exactly the graph's results in the outputs of the run. -/
theorem setOuts_eq (nil : T) (env : Nat → T) (a : List Nat) (o : List T) (ho : o.length ≤ a.length) :
    setOuts nil env a.zipIdx.reverse o = a.map env := by
  induction a using List.reverseRecOn with
  | nil =>
    have : o = [] := by simpa using ho
    subst this
    rfl
  | append_singleton c y _ =>
    rw [List.length_append, List.length_singleton] at ho
    have e : (c ++ [y]).zipIdx.reverse = (y, c.length) :: c.zipIdx.reverse := by
      rw [List.zipIdx_append]; simp
    rw [e, setOuts, List.foldl_cons]
    have hlen : (setOut nil o c.length (env y)).length = c.length + 1 := by
      unfold setOut
      split_ifs with h
      · simp; omega
      · simp; omega
    have hget : (setOut nil o c.length (env y))[c.length]? = some (env y) := by
      unfold setOut
      rw [List.getElem?_set_self]
      split_ifs with h
      · simp; omega
      · omega
    have := setOuts_aux nil env c (setOut nil o c.length (env y)) (by omega)
    rw [setOuts] at this
    rw [this, List.map_append]
    congr 1
    rw [List.drop_eq_getElem_cons (by omega), List.drop_of_length_le (by omega)]
    have : (setOut nil o c.length (env y))[c.length]'(by omega) = env y := by
      rw [List.getElem?_eq_getElem (by omega)] at hget
      exact Option.some.inj hget
    simp [this]

/-- Running the code of a module. -/
theorem run_code {G : List (Name × List Op)} {n0 : Name} {b0 : List Op} (pre : List Op)
    (hpre : pre = [] ∨ pre = [Op.mode]) {ins outs : List Nat}
    (hcode : code = pre ++ (header n0 ins outs ++ blocks G)) (hp : index code = some p) (hlen : p.length < 2 ^ 31)
    (hmain : (n0, b0 ++ [.cfret]) ∈ G) (hin : inputs.length = ins.length) {w : W} {s' : W × (Nat → T)}
    {mc : Machine T W} (hw : mc.world = w) (hE : Exec S G b0 (w, assign mc.env ins inputs) s')
    (hpc : mc.pc = 0) (hh : mc.halted = false) (hout : mc.outs.length ≤ outs.length) :
    ∃ k f, steps S p inputs k mc = f ∧ f.halted = true ∧ f.bad = mc.bad ∧ f.world = s'.1 ∧ f.env = s'.2 ∧
      f.outs = outs.map s'.2 ∧ f.stack = mc.stack := by
  obtain ⟨m, hm⟩ := index_labels hp
  have hpl : p.length = plen code := by
    rw [index, hm] at hp
    rw [mapM_length hp, withIds_length]
  have hlen' : plen code < 2 ^ 31 := by omega
  have hblk : ∀ n b, (n, b) ∈ G → ∃ pre post, code = pre ++ (.label (entry n) :: b.map low) ++ post := by
    intro n b hb
    obtain ⟨x, y, hxy⟩ := block_at hb
    refine ⟨pre ++ header n0 ins outs ++ x, y, ?_⟩
    rw [hcode]
    simp only at hxy
    rw [hxy]
    simp
  have hbpos : 0 < plen (blocks G) := by
    obtain ⟨x, y, hxy⟩ := block_at hmain
    rw [hxy, plen_append, plen_append, plen_cons]
    simp [Op.isProgram]
  -- the optional mode op
  have h0 : ∃ k, steps S p inputs k mc = { mc with pc := plen pre } := by
    rcases hpre with rfl | rfl
    · exact ⟨0, by simp [steps, plen_nil, ← hpc]⟩
    · refine ⟨1, ?_⟩
      show step S p inputs mc = _
      refine step_at (S := S) (inputs := inputs) (i := .mode) hp (pre := []) (o := .mode) (post := header n0 ins outs ++ blocks G)
        (by rw [hcode]; rfl) rfl hm rfl hpc hh (by simp [execInstr, hpc]; rfl) (.inr ?_)
      show plen [Op.mode] < plen code
      rw [hcode, plen_append, plen_append]
      omega
  obtain ⟨k0, hk0⟩ := h0
  -- input binds
  obtain ⟨k1, hk1⟩ := run_inputs (S := S) (inputs := inputs) hp ins 0 pre
    (.jump (entry n0) :: ((outs.zipIdx.reverse.map fun q => .bind q.2 q.1 false) ++ [.exit]) ++ blocks G)
    { mc with pc := plen pre } (by rw [hcode, header]; simp)
    (by rw [plen_append]; omega) rfl hh (by omega)
  simp only [List.drop_zero] at hk1
  -- jump, body and return
  have hcall : Exec S G [.call n0 ins outs] (w, assign mc.env ins inputs) s' := .call hmain hE (.nil _)
  have hbl : plen ((ins.zipIdx).map fun q => Op.bind q.2 q.1 true) = ins.length := by
    rw [plen, List.countP_eq_length.2]
    · simp
    · intro o ho
      obtain ⟨q, _, rfl⟩ := List.mem_map.1 ho
      rfl
  have hol : plen ((outs.zipIdx.reverse).map fun q => Op.bind q.2 q.1 false) = outs.length := by
    rw [plen, List.countP_eq_length.2]
    · simp
    · intro o ho
      obtain ⟨q, _, rfl⟩ := List.mem_map.1 ho
      rfl
  obtain ⟨k2, hk2⟩ := exec_machine (S := S) (inputs := inputs) hp hlen' hblk hcall
    (pre ++ (ins.zipIdx).map fun q => Op.bind q.2 q.1 true)
    (((outs.zipIdx.reverse.map fun q => .bind q.2 q.1 false) ++ [.exit]) ++ blocks G)
    { mc with pc := plen pre + ins.length, env := assign mc.env ins inputs }
    (by rw [hcode, header]; simp [low, lowerLinalg, lowerFree, lowerRet, lowerCall])
    (by rw [plen_append]; omega) (by rw [plen_append, hbl]) hh hw rfl
  rw [plen_append, hbl] at hk2
  have hlc : plen (List.map low [Op.call n0 ins outs]) = 1 := rfl
  rw [hlc] at hk2
  -- output binds
  obtain ⟨k3, hk3⟩ := run_outputs (S := S) (inputs := inputs) hp outs.zipIdx.reverse
    (pre ++ ((ins.zipIdx).map fun q => Op.bind q.2 q.1 true) ++ [.jump (entry n0)]) (.exit :: blocks G)
    { mc with pc := plen pre + ins.length + 1, env := s'.2, world := s'.1 }
    (by rw [hcode, header]; simp) (by rw [plen_cons]; simp [Op.isProgram]) (by rw [plen_append, plen_append, hbl]; rfl) hh
  rw [plen_append, plen_append, hbl] at hk3
  have hj1 : plen [Op.jump (entry n0)] = 1 := rfl
  rw [hj1] at hk3
  -- exit
  have hs4 : step S p inputs { mc with
      pc := plen pre + ins.length + 1 + (outs.zipIdx.reverse).length, env := s'.2, world := s'.1,
      outs := setOuts S.nil s'.2 outs.zipIdx.reverse mc.outs } = { mc with
      pc := plen pre + ins.length + 1 + (outs.zipIdx.reverse).length, env := s'.2, world := s'.1,
      outs := setOuts S.nil s'.2 outs.zipIdx.reverse mc.outs, halted := true } := by
    refine step_at (S := S) (inputs := inputs) (i := .exit) hp
      (pre := pre ++ ((ins.zipIdx).map fun q => Op.bind q.2 q.1 true) ++ [.jump (entry n0)] ++
        (outs.zipIdx.reverse).map fun q => Op.bind q.2 q.1 false) (o := .exit) (post := blocks G)
      (by rw [hcode, header]; simp) rfl hm rfl ?_ hh rfl (.inl rfl)
    rw [plen_append, plen_append, plen_append, hbl, hol, hj1]
    simp
  refine ⟨k0 + (k1 + (k2 + (k3 + 1))), { mc with
      pc := plen pre + ins.length + 1 + (outs.zipIdx.reverse).length, env := s'.2, world := s'.1,
      outs := setOuts S.nil s'.2 outs.zipIdx.reverse mc.outs, halted := true }, ?_, ?_⟩
  · rw [steps_add, steps_add, steps_add, steps_add, hk0, hk1]
    simp only at hk2 hk3 ⊢
    rw [hk2, hk3]
    exact hs4
  · exact ⟨rfl, rfl, rfl, rfl, setOuts_eq _ _ _ _ hout, rfl⟩

/-- Compiling and running a module: outputs, world and tensors are those of the graph. -/
theorem compile_run {G : List (Name × List Op)} {n0 : Name} {b0 : List Op} (hwf : Wf n0 G) (eager : Bool)
    {regs ins outs : List Nat} (hmain : (n0, b0 ++ [.cfret]) ∈ G) :
    ∃ p, compile eager (mkRegion regs n0 ins outs G) = some p ∧
      (p.length < 2 ^ 31 → ∀ (w : W) (mc : Machine T W) (inputs : List T) (s' : W × (Nat → T)),
        inputs.length = ins.length → mc.world = w → Exec S G b0 (w, assign mc.env ins inputs) s' →
        mc.pc = 0 → mc.halted = false → mc.outs.length ≤ outs.length →
        ∃ k f, steps S p inputs k mc = f ∧ f.halted = true ∧ f.bad = mc.bad ∧ f.world = s'.1 ∧ f.env = s'.2 ∧
          f.outs = outs.map s'.2 ∧ f.stack = mc.stack) := by
  have hpre : (if eager then [Op.mode] else []) = [] ∨ (if eager then [Op.mode] else []) = [Op.mode] := by
    cases eager <;> simp
  obtain ⟨p, hp⟩ := code_index hwf (if eager then [Op.mode] else []) (by cases eager <;> rfl)
    (by cases eager <;> simp) ins outs
  refine ⟨p, ?_, ?_⟩
  · rw [compile, lower_mkRegion hwf]
    simp only
    rw [← hp]
    cases eager <;> rfl
  · intro hlen w mc inputs s' hin hw hE hpc hh hout
    exact run_code _ hpre rfl hp hlen hmain hin hw hE hpc hh hout

/-! ### Traces -/

/-- The same calls with tensors named by their storage. -/
def Steps.storage (st : Nat → Nat) : Steps → Steps
  | .done => .done
  | .op o ins outs rest => .op o (ins.map st) (outs.map st) (rest.storage st)
  | .note rest => .note (rest.storage st)
  | .sub m ins outs body rest => .sub m (ins.map st) (outs.map st) (body.storage st) (rest.storage st)

theorem trace_exec (st : Nat → Nat) (G : List (Name × List Op)) : ∀ (x : Steps) (ns : Names) (s : W × (Nat → T)),
    (∀ q ∈ (x.trace st ns).2.2, q ∈ G) → Exec S G (x.trace st ns).2.1 s ((x.storage st).eval S s)
  | .done, _, s, _ => .nil s
  | .op o ins outs rest, ns, s, h => .linalg (trace_exec st G rest ns _ h)
  | .note rest, ns, s, h => .dbg (trace_exec st G rest ns _ h)
  | .sub m ins outs body rest, ns, s, h => by
    refine .call (b := (body.trace st (ns.next m).2).2.1) (s1 := (body.storage st).eval S s)
      (h _ (by simp [Steps.trace])) ?_ ?_
    · exact trace_exec st G body _ s fun q hq => h q (by simp [Steps.trace, hq])
    · exact trace_exec st G rest _ _ fun q hq => h q (by simp [Steps.trace, hq])

theorem trace_ops (st : Nat → Nat) : ∀ (x : Steps) (ns : Names),
    (∀ o ∈ (x.trace st ns).2.1, o.isGraph = true) ∧
    (∀ q ∈ (x.trace st ns).2.2, ∀ o ∈ q.2, o.isGraph = true) ∧
    (∀ n i o, Op.call n i o ∈ (x.trace st ns).2.1 → n ∈ (x.trace st ns).2.2.map Prod.fst) ∧
    (∀ q ∈ (x.trace st ns).2.2, ∀ n i o, Op.call n i o ∈ q.2 → n ∈ (x.trace st ns).2.2.map Prod.fst)
  | .done, ns => by simp [Steps.trace]
  | .op o ins outs rest, ns => by
    obtain ⟨h1, h2, h3, h4⟩ := trace_ops st rest ns
    refine ⟨?_, h2, ?_, h4⟩
    · intro a ha
      rcases List.mem_cons.1 ha with rfl | ha
      · rfl
      · exact h1 a ha
    · intro n i u ha
      rcases List.mem_cons.1 ha with ha | ha
      · cases ha
      · exact h3 n i u ha
  | .note rest, ns => by
    obtain ⟨h1, h2, h3, h4⟩ := trace_ops st rest ns
    refine ⟨?_, h2, ?_, h4⟩
    · intro a ha
      rcases List.mem_cons.1 ha with rfl | ha
      · rfl
      · exact h1 a ha
    · intro n i u ha
      rcases List.mem_cons.1 ha with ha | ha
      · cases ha
      · exact h3 n i u ha
  | .sub m ins outs body rest, ns => by
    obtain ⟨b1, b2, b3, b4⟩ := trace_ops st body (ns.next m).2
    obtain ⟨h1, h2, h3, h4⟩ := trace_ops st rest (body.trace st (ns.next m).2).1
    have hb : ∀ n, n ∈ (body.trace st (ns.next m).2).2.2.map Prod.fst →
        n ∈ ((Steps.sub m ins outs body rest).trace st ns).2.2.map Prod.fst := by
      intro n hn; simp only [Steps.trace, List.map_cons, List.map_append]
      exact List.mem_cons_of_mem _ (List.mem_append_left _ hn)
    have hr : ∀ n, n ∈ (rest.trace st (body.trace st (ns.next m).2).1).2.2.map Prod.fst →
        n ∈ ((Steps.sub m ins outs body rest).trace st ns).2.2.map Prod.fst := by
      intro n hn; simp only [Steps.trace, List.map_cons, List.map_append]
      exact List.mem_cons_of_mem _ (List.mem_append_right _ hn)
    have hm : ∀ q, q ∈ ((Steps.sub m ins outs body rest).trace st ns).2.2 →
        q = ((ns.next m).1, (body.trace st (ns.next m).2).2.1 ++ [.cfret]) ∨
        q ∈ (body.trace st (ns.next m).2).2.2 ∨ q ∈ (rest.trace st (body.trace st (ns.next m).2).1).2.2 := by
      intro q hq
      simp only [Steps.trace] at hq
      rcases List.mem_cons.1 hq with hq | hq
      · exact .inl hq
      · exact .inr (List.mem_append.1 hq)
    refine ⟨?_, ?_, ?_, ?_⟩
    · intro a ha
      rcases List.mem_cons.1 ha with rfl | ha
      · rfl
      · exact h1 a ha
    · intro q hq o ho
      rcases hm q hq with rfl | hq | hq
      · rcases List.mem_append.1 ho with ho | ho
        · exact b1 o ho
        · rw [List.mem_singleton] at ho; subst ho; rfl
      · exact b2 q hq o ho
      · exact h2 q hq o ho
    · intro n i u ha
      rcases List.mem_cons.1 ha with ha | ha
      · cases ha; simp [Steps.trace]
      · exact hr n (h3 n i u ha)
    · intro q hq n i u ho
      rcases hm q hq with rfl | hq | hq
      · rcases List.mem_append.1 ho with ho | ho
        · exact hb n (b3 n i u ho)
        · rw [List.mem_singleton] at ho; cases ho
      · exact hb n (b4 q hq n i u ho)
      · exact hr n (h4 q hq n i u ho)

end Verif.Compile
