import Verif.Compile.Solved
/-
Compiled modules: C32 (eager memory solver), C33 (jumps), C46 (compiled = eager), C47 (module names), C48 (runs of a
loaded program).
-/
namespace Verif.Compile

variable {T W : Type} {S : Sem T W}

/-! ### C33: jumps -/

/-- Indexing succeeds exactly when no label occurs twice and every jump names a label of the program. -/
theorem C33_indexing_succeeds_iff (code : List Op) :
    (∃ p, index code = some p) ↔ (labels code).Nodup ∧ ∀ l, Op.jump l ∈ code → l ∈ labels code :=
  ⟨fun ⟨_, h⟩ => index_some h, fun ⟨h1, h2⟩ => index_isSome h1 h2⟩

/-- The instruction ids are 0, 1, 2, ... -/
theorem C33_ids_consecutive {code : List Op} {p : List (Nat × Instr)} (h : index code = some p) :
    p.map Prod.fst = List.range p.length := by
  obtain ⟨m, hm⟩ := index_labels h
  rw [index, hm] at h
  simp only at h
  have h1 : ∀ (l : List (Nat × Op)) (l' : List (Nat × Instr)),
      (l.mapM fun p => (instr m p.1 p.2).map fun i => (p.1, i)) = some l' → l'.map Prod.fst = l.map Prod.fst := by
    intro l
    induction l with
    | nil => intro l' h; simp at h; subst h; rfl
    | cons a l ih =>
      intro l' h
      rw [List.mapM_cons] at h
      cases ha : instr m a.1 a.2 with
      | none => rw [ha] at h; simp at h
      | some i =>
        cases hl : l.mapM fun p => (instr m p.1 p.2).map fun i => (p.1, i) with
        | none => rw [ha, hl] at h; simp at h
        | some l'' =>
          rw [ha, hl] at h
          simp at h
          subst h
          simp [ih l'' hl]
  have h2 : ∀ (l : List Op) (k : Nat), (withIds l k).map Prod.fst = List.range' k (plen l) := by
    intro l
    induction l with
    | nil => intro k; rfl
    | cons o l ih =>
      intro k
      rw [withIds, plen_cons]
      by_cases ho : o.isProgram = true
      · rw [if_pos ho, if_pos ho, List.map_cons, ih, List.range'_succ]
      · rw [if_neg ho, if_neg ho, ih]; rfl
  have h3 := mapM_length h
  rw [h1 _ _ h, h2, h3, withIds_length, List.range_eq_range']

/-- Following a jump from its own id lands on the id of the label it names. The id of an op is the number of
program ops before it. (Programs of less than 2^31 instructions: see `C33_jump_exact`.) -/
theorem C33_jump_offsets_reach_labels_partial {code : List Op} {p : List (Nat × Instr)} (h : index code = some p)
    (hlen : p.length < 2 ^ 31) {pre post : List Op} {l : Name} (hc : code = pre ++ .jump l :: post) :
    ∃ off pre' post', fetch p (plen pre) = .jump off ∧ code = pre' ++ .label l :: post' ∧
      pcAdd (plen pre) off = plen pre' ∧ fetch p (plen pre') = .label := by
  obtain ⟨m, hm, hf, hl⟩ := fetch_index h hc rfl
  have hlab := (index_some h).2 l (by rw [hc]; simp)
  have : Op.label l ∈ code := by
    rw [labels, List.mem_filterMap] at hlab
    obtain ⟨o, ho, he⟩ := hlab
    cases o <;> simp at he
    subst he; exact ho
  obtain ⟨pre', post', hc'⟩ := List.append_of_mem this
  obtain ⟨m', hm', hf', _⟩ := fetch_index h hc' rfl
  have hlook := label_lookup hm hc'
  refine ⟨offset (plen pre') (plen pre), pre', post', ?_, hc', ?_, ?_⟩
  · have : instr m (plen pre) (.jump l) = some (.jump (offset (plen pre') (plen pre))) := by
      simp only [instr]; rw [hlook]
    rw [this] at hf
    exact Option.some.inj hf
  · have e1 : plen code = plen pre + (1 + plen post) := by
      rw [hc, plen_append, plen_cons]; simp [Op.isProgram]; omega
    have e2 : plen code = plen pre' + (1 + plen post') := by
      rw [hc', plen_append, plen_cons]; simp [Op.isProgram]; omega
    exact pcAdd_offset (by omega) (by omega)
  · exact Option.some.inj hf'

/-- The exact range: a jump reaches its label iff the distance fits the `int` of the attribute. -/
theorem C33_jump_exact {t k : Nat} (ht : t < 2 ^ 63) (hk : k < 2 ^ 63) :
    pcAdd k (offset t k) = t ↔ -2 ^ 31 ≤ (t : Int) - k ∧ (t : Int) - k < 2 ^ 31 := by
  unfold pcAdd offset
  have h1 := Int.bmod_def ((t : Int) - k) (2 ^ 32)
  rw [h1]
  constructor
  · intro h
    split_ifs at h <;> omega
  · rintro ⟨h2, h3⟩
    split_ifs <;> omega

/-! ### C47: names of modules -/

/-- The modules called, in order. -/
def Steps.mods : Steps → List Nat
  | .done => []
  | .op _ _ _ rest => rest.mods
  | .note rest => rest.mods
  | .sub m _ _ body rest => m :: (body.mods ++ rest.mods)

theorem trace_names (st : Nat → Nat) : ∀ (x : Steps) (ns : Names),
    (∀ a ∈ x.mods, ns.counter (ns.abs a) = 0) → (x.mods.map ns.abs).Nodup →
    (x.trace st ns).2.2.map Prod.fst = x.mods.map ns.abs ∧ (x.trace st ns).1.abs = ns.abs ∧
      ∀ n, n ∉ x.mods.map ns.abs → (x.trace st ns).1.counter n = ns.counter n
  | .done, ns, _, _ => ⟨rfl, rfl, fun _ _ => rfl⟩
  | .op _ _ _ rest, ns, h1, h2 => trace_names st rest ns h1 h2
  | .note rest, ns, h1, h2 => trace_names st rest ns h1 h2
  | .sub m i u body rest, ns, h1, h2 => by
    have e0 : ns.counter (ns.abs m) = 0 := h1 m (List.mem_cons_self ..)
    have e1 : (ns.next m).1 = ns.abs m := by simp [Names.next, uniqueName, e0]
    have e2 : (ns.next m).2 = ⟨Function.update ns.counter (ns.abs m) 1, ns.abs⟩ := by
      simp [Names.next, uniqueName, e0]
    rw [Steps.mods, List.map_cons, List.nodup_cons, List.map_append] at h2
    obtain ⟨h3, h4⟩ := h2
    obtain ⟨h5, h6, h7⟩ := List.nodup_append.1 h4
    have hb := trace_names st body (ns.next m).2 (by
      intro a ha
      rw [e2]
      show Function.update ns.counter (ns.abs m) 1 (ns.abs a) = 0
      rw [Function.update_of_ne]
      · exact h1 a (by simp [Steps.mods, ha])
      · intro e; exact h3 (e ▸ List.mem_append_left _ (List.mem_map_of_mem ha))) (by rw [e2]; exact h5)
    obtain ⟨b1, b2, b3⟩ := hb
    have e3 : (ns.next m).2.abs = ns.abs := by rw [e2]
    rw [e3] at b1 b2 b3
    have hr := trace_names st rest (body.trace st (ns.next m).2).1 (by
      intro a ha
      rw [b2, b3, e2]
      · show Function.update ns.counter (ns.abs m) 1 (ns.abs a) = 0
        rw [Function.update_of_ne]
        · exact h1 a (by simp [Steps.mods, ha])
        · intro e; exact h3 (e ▸ List.mem_append_right _ (List.mem_map_of_mem ha))
      · intro hm
        exact h7 _ hm _ (List.mem_map_of_mem ha) rfl) (by rw [b2]; exact h6)
    obtain ⟨r1, r2, r3⟩ := hr
    rw [b2] at r1 r2 r3
    refine ⟨?_, ?_, ?_⟩
    · simp only [Steps.trace, List.map_cons, List.map_append, Steps.mods]
      rw [b1, r1, e1]
    · show (rest.trace st (body.trace st (ns.next m).2).1).1.abs = ns.abs
      exact r2
    · intro n hn
      rw [Steps.mods, List.map_cons, List.mem_cons, not_or, List.map_append, List.mem_append, not_or] at hn
      show (rest.trace st (body.trace st (ns.next m).2).1).1.counter n = ns.counter n
      rw [r3 n hn.2.2, b3 n hn.2.1, e2]
      exact Function.update_of_ne hn.1 _ _

/-- A module compiles if the modules called have different names, none of them a reserved one. (The full property
allows a module to be called any number of times; it fails from the third call on, see below.) -/
theorem C47_distinct_modules_compile_partial (st : Nat → Nat) (abs : Nat → Name) (regs : List Nat) (m : Nat)
    (ins outs : List Nat) (body : Steps) (eager : Bool) (h1 : ((m :: body.mods).map abs).Nodup)
    (h2 : ∀ a ∈ m :: body.mods, reserved (abs a) = false) :
    (∃ p, compile eager (traceModule st abs regs m ins outs body) = some p) ∧
    (graphsOf st abs m body).map Prod.fst = (m :: body.mods).map abs := by
  rw [List.map_cons, List.nodup_cons] at h1
  have e1 : (Names.init abs).next m = (abs m, ⟨Function.update (fun _ => 0) (abs m) 1, abs⟩) := by
    simp [Names.next, uniqueName, Names.init]
  obtain ⟨t1, _, _⟩ := trace_names st body ((Names.init abs).next m).2 (by
    intro a ha
    rw [e1]
    show Function.update (fun _ => 0) (abs m) 1 (abs a) = 0
    rw [Function.update_of_ne]
    intro e
    exact h1.1 (e ▸ List.mem_map_of_mem ha)) (by rw [e1]; exact h1.2)
  have e2 : ((Names.init abs).next m).2.abs = abs := by rw [e1]
  rw [e2] at t1
  have hn : (graphsOf st abs m body).map Prod.fst = (m :: body.mods).map abs := by
    simp only [graphsOf, List.map_cons]
    rw [t1, e1]
  refine ⟨?_, hn⟩
  obtain ⟨g1, g2, g3⟩ := graphs_ops st abs m body
  have hwf : Wf ((Names.init abs).next m).1 (graphsOf st abs m body) := by
    refine ⟨by rw [hn, List.map_cons, List.nodup_cons]; exact h1, ?_, g1, g2, g3⟩
    intro q hq
    have : q.1 ∈ (m :: body.mods).map abs := by rw [← hn]; exact List.mem_map_of_mem hq
    obtain ⟨a, ha, he⟩ := List.mem_map.1 this
    rw [← he]; exact h2 a ha
  rw [traceModule_eq, compile, lower_mkRegion hwf]
  simp only
  obtain ⟨p, hp⟩ := code_index hwf (if eager then [Op.mode] else []) (by cases eager <;> rfl)
    (by cases eager <;> simp) (ins.map st) (outs.map st)
  exact ⟨p, by rw [← hp]; cases eager <;> rfl⟩

/-- A module compiles iff the names given to the graphs are different and not reserved. -/
theorem C47_compiles_iff_names (st : Nat → Nat) (abs : Nat → Name) (regs : List Nat) (m : Nat)
    (ins outs : List Nat) (body : Steps) (eager : Bool) :
    (∃ p, compile eager (traceModule st abs regs m ins outs body) = some p) ↔
      ((graphsOf st abs m body).map Prod.fst).Nodup ∧ ∀ q ∈ graphsOf st abs m body, reserved q.1 = false := by
  constructor
  · rintro ⟨p, h⟩
    exact ⟨(wf_of_compile h).nodup, (wf_of_compile h).free⟩
  · rintro ⟨h1, h2⟩
    obtain ⟨g1, g2, g3⟩ := graphs_ops st abs m body
    have hwf : Wf ((Names.init abs).next m).1 (graphsOf st abs m body) := ⟨h1, h2, g1, g2, g3⟩
    rw [traceModule_eq, compile, lower_mkRegion hwf]
    simp only
    obtain ⟨p, hp⟩ := code_index hwf (if eager then [Op.mode] else []) (by cases eager <;> rfl)
      (by cases eager <;> simp) (ins.map st) (outs.map st)
    exact ⟨p, by rw [← hp]; cases eager <;> rfl⟩

/-! ### Runs of a program -/

/-- A run of the loaded program on `inputs` ends, without undefined behaviour, in `mc'`. -/
def Runs (S : Sem T W) (p : List (Nat × Instr)) (inputs : List T) (mc mc' : Machine T W) : Prop :=
  ∃ k, steps S p inputs k (start mc) = mc' ∧ mc'.halted = true ∧ mc'.bad = false

theorem steps_halted (p : List (Nat × Instr)) (inputs : List T) (k : Nat) (mc : Machine T W) (h : mc.halted = true) :
    steps S p inputs k mc = mc := by
  induction k with
  | zero => rfl
  | succ k ih => rw [steps_succ, step, if_pos h, ih]

/-- A run has one result. -/
theorem Runs.unique {p : List (Nat × Instr)} {inputs : List T} {mc a b : Machine T W} (ha : Runs S p inputs mc a)
    (hb : Runs S p inputs mc b) : a = b := by
  obtain ⟨k, hk, h1, _⟩ := ha
  obtain ⟨j, hj, h2, _⟩ := hb
  rcases Nat.le_total k j with h | h
  · obtain ⟨d, rfl⟩ := Nat.exists_eq_add_of_le h
    rw [steps_add, hk, steps_halted _ _ _ _ h1] at hj
    exact hj
  · obtain ⟨d, rfl⟩ := Nat.exists_eq_add_of_le h
    rw [steps_add, hj, steps_halted _ _ _ _ h2] at hk
    exact hk.symm

/-- A module whose graphs are `G`, run from any state. -/
theorem runs_of_exec {G : List (Name × List Op)} {n0 : Name} {b0 : List Op} {regs ins outs : List Nat} {eager : Bool}
    {p : List (Nat × Instr)} (hwf : Wf n0 G) (hmain : (n0, b0 ++ [.cfret]) ∈ G)
    (hp : compile eager (mkRegion regs n0 ins outs G) = some p) (hlen : p.length < 2 ^ 31) {inputs : List T}
    (hin : inputs.length = ins.length) {mc : Machine T W} {s' : W × (Nat → T)}
    (hE : Exec S G b0 (mc.world, assign mc.env ins inputs) s') (hbad : mc.bad = false)
    (hout : mc.outs.length ≤ outs.length) :
    ∃ mc', Runs S p inputs mc mc' ∧ mc'.world = s'.1 ∧ mc'.env = s'.2 ∧ mc'.outs = outs.map s'.2 := by
  obtain ⟨p', hp', hrun⟩ := compile_run (S := S) hwf eager (regs := regs) (ins := ins) (outs := outs) hmain
  rw [hp] at hp'
  cases hp'
  obtain ⟨k, f, h1, h2, h3, h4, h5, h6, _⟩ := hrun hlen mc.world (start mc) inputs s' hin rfl hE rfl rfl hout
  exact ⟨f, ⟨k, h1, h2, by rw [h3]; exact hbad⟩, h4, h5, h6⟩

/-- The run of a compiled trace from any state whose tensors agree with `env`. -/
theorem runs_trace {st : Nat → Nat} {abs : Nat → Name} {regs : List Nat} {m : Nat} {ins outs : List Nat} {body : Steps}
    {eager : Bool} {p : List (Nat × Instr)}
    (hp : compile eager (traceModule st abs regs m ins outs body) = some p) (hlen : p.length < 2 ^ 31)
    (har : body.arity S) {l l' : Nat → Option Nat} (hfresh : body.fresh st (writes st l ins) = some l')
    (houts : ∀ v ∈ outs, l' (st v) = some v) {inputs : List T} (hin : inputs.length = ins.length)
    {mc : Machine T W} {env : Nat → T} (hsim : Sim st l env mc.env) (hbad : mc.bad = false)
    (hout : mc.outs.length ≤ outs.length) :
    ∃ mc', Runs S p inputs mc mc' ∧
      mc'.world = (body.eval S (mc.world, assign env ins inputs)).1 ∧
      mc'.outs = outs.map (body.eval S (mc.world, assign env ins inputs)).2 ∧
      mc'.env = ((body.storage st).eval S (mc.world, assign mc.env (ins.map st) inputs)).2 := by
  have hwf := wf_of_compile hp
  rw [traceModule_eq] at hp
  have hE := trace_exec (S := S) st (graphsOf st abs m body) body ((Names.init abs).next m).2
    (mc.world, assign mc.env (ins.map st) inputs) (fun q hq => List.mem_cons_of_mem _ hq)
  obtain ⟨mc', h1, h2, h3, h4⟩ := runs_of_exec hwf (List.mem_cons_self ..) hp hlen (by simpa using hin) hE hbad
    (by simpa using hout)
  obtain ⟨e1, e2⟩ := eval_storage (S := S) (st := st) body (s := (mc.world, assign env ins inputs))
    (cs := (mc.world, assign mc.env (ins.map st) inputs)) har hfresh rfl (hsim.assign ins inputs hin)
  refine ⟨mc', h1, by rw [h2, e1], ?_, h3⟩
  rw [h4, List.map_map]
  exact List.map_congr_left fun v hv => (e2 _ _ (houts v hv)).2

/-! ### C46: the compiled module computes what the module computes -/

/-- Running the module without compiling it, with the constants `consts`. -/
def eager (S : Sem T W) (consts : List (Nat × T)) (ins : List Nat) (body : Steps) (w : W) (inputs : List T) :
    W × (Nat → T) :=
  body.eval S (w, assign (assign (fun _ => S.nil) (consts.map Prod.fst) (consts.map Prod.snd)) ins inputs)

theorem sim_consts (st : Nat → Nat) (nil : T) (consts : List (Nat × T)) :
    Sim st (writes st (fun _ => none) (consts.map Prod.fst))
      (assign (fun _ => nil) (consts.map Prod.fst) (consts.map Prod.snd))
      (assign (fun _ => nil) ((consts.map Prod.fst).map st) (consts.map Prod.snd)) := by
  have : Sim st (fun _ => none) (fun _ => nil) (fun _ => nil) := by
    intro u v h; cases h
  exact this.assign _ _ (by simp)

/-- Whenever a traced module compiles, running the program gives the outputs and the effects of running the module
itself, if no op and no result uses a tensor after another view of its storage was produced (`fresh`). -/
theorem C46_compiled_module_is_eager_module_partial {st : Nat → Nat} {abs : Nat → Name} {regs : List Nat} {m : Nat}
    {ins outs : List Nat} {body : Steps} {eagerMode : Bool} {p : List (Nat × Instr)}
    (hp : compile eagerMode (traceModule st abs regs m ins outs body) = some p) (hlen : p.length < 2 ^ 31)
    (har : body.arity S) (consts : List (Nat × T)) {l : Nat → Option Nat}
    (hfresh : body.fresh st (writes st (fun _ => none) (consts.map Prod.fst ++ ins)) = some l)
    (houts : ∀ v ∈ outs, l (st v) = some v) (w : W) {inputs : List T} (hin : inputs.length = ins.length) :
    ∃ mc', Runs S p inputs (loaded S w (consts.map fun q => (st q.1, q.2))) mc' ∧
      mc'.world = (eager S consts ins body w inputs).1 ∧
      mc'.outs = outs.map (eager S consts ins body w inputs).2 := by
  have hw : writes st (fun _ => none) (consts.map Prod.fst ++ ins) =
      writes st (writes st (fun _ => none) (consts.map Prod.fst)) ins := by simp [writes]
  rw [hw] at hfresh
  have hsim := sim_consts st S.nil consts
  have he : (loaded S w (consts.map fun q => (st q.1, q.2))).env =
      assign (fun _ => S.nil) ((consts.map Prod.fst).map st) (consts.map Prod.snd) := by
    simp [loaded, Function.comp_def]
  obtain ⟨mc', h1, h2, h3, _⟩ := runs_trace (S := S) hp hlen har hfresh houts hin
    (mc := loaded S w (consts.map fun q => (st q.1, q.2))) (by rw [he]; exact hsim) rfl (by simp [loaded])
  exact ⟨mc', h1, h2, h3⟩

/-- Every tensor used was defined before. -/
def Steps.defined : Steps → List Nat → Option (List Nat)
  | .done, d => some d
  | .op _ ins outs rest, d => if ∀ v ∈ ins, v ∈ d then rest.defined (d ++ outs) else none
  | .note rest, d => rest.defined d
  | .sub _ _ _ body rest, d =>
    match body.defined d with
    | none => none
    | some d' => rest.defined d'

theorem writes_defined {st : Nat → Nat} (hst : Function.Injective st) {l : Nat → Option Nat} {d : List Nat}
    (h : ∀ v ∈ d, l (st v) = some v) (vs : List Nat) : ∀ v ∈ d ++ vs, writes st l vs (st v) = some v := by
  induction vs generalizing l d with
  | nil => simpa [writes] using h
  | cons a vs ih =>
    have := ih (l := Function.update l (st a) (some a)) (d := d ++ [a]) (by
      intro v hv
      by_cases e : v = a
      · subst e; simp
      · rw [Function.update_of_ne fun he => e (hst he)]
        rcases List.mem_append.1 hv with hv | hv
        · exact h v hv
        · exact absurd (List.mem_singleton.1 hv) e)
    intro v hv
    exact this v (by simpa using hv)

theorem fresh_of_defined {st : Nat → Nat} (hst : Function.Injective st) : ∀ (x : Steps) {l : Nat → Option Nat}
    {d d' : List Nat}, (∀ v ∈ d, l (st v) = some v) → x.defined d = some d' →
    ∃ l', x.fresh st l = some l' ∧ ∀ v ∈ d', l' (st v) = some v
  | .done, l, d, d', h, hd => by cases hd; exact ⟨l, rfl, h⟩
  | .op _ ins outs rest, l, d, d', h, hd => by
    rw [Steps.defined] at hd
    split_ifs at hd with hi
    rw [Steps.fresh, if_pos fun v hv => h v (hi v hv)]
    exact fresh_of_defined hst rest (writes_defined hst h outs) hd
  | .note rest, l, d, d', h, hd => fresh_of_defined hst rest h hd
  | .sub _ _ _ body rest, l, d, d', h, hd => by
    rw [Steps.defined] at hd
    cases hb : body.defined d with
    | none => rw [hb] at hd; cases hd
    | some d1 =>
      rw [hb] at hd
      obtain ⟨l1, h1, h2⟩ := fresh_of_defined hst body h hb
      obtain ⟨l2, h3, h4⟩ := fresh_of_defined hst rest h2 hd
      exact ⟨l2, by rw [Steps.fresh, h1]; exact h3, h4⟩

/-- If no two tensors share storage, only use before definition is excluded. -/
theorem C46_without_views_partial {st : Nat → Nat} (hst : Function.Injective st) {abs : Nat → Name} {regs : List Nat}
    {m : Nat} {ins outs : List Nat} {body : Steps} {eagerMode : Bool} {p : List (Nat × Instr)}
    (hp : compile eagerMode (traceModule st abs regs m ins outs body) = some p) (hlen : p.length < 2 ^ 31)
    (har : body.arity S) (consts : List (Nat × T)) {d : List Nat}
    (hdef : body.defined (consts.map Prod.fst ++ ins) = some d) (houts : ∀ v ∈ outs, v ∈ d) (w : W) {inputs : List T}
    (hin : inputs.length = ins.length) :
    ∃ mc', Runs S p inputs (loaded S w (consts.map fun q => (st q.1, q.2))) mc' ∧
      mc'.world = (eager S consts ins body w inputs).1 ∧
      mc'.outs = outs.map (eager S consts ins body w inputs).2 := by
  obtain ⟨l, h1, h2⟩ := fresh_of_defined hst body (d := consts.map Prod.fst ++ ins) (by
    have := writes_defined hst (l := fun _ => none) (d := []) (by simp) (consts.map Prod.fst ++ ins)
    simpa using this) hdef
  exact C46_compiled_module_is_eager_module_partial hp hlen har consts h1 (fun v hv => h2 v (houts v hv)) w hin

/-! ### C48: running a loaded program again -/

/-- Runs one after the other, with the outputs of each. -/
inductive Session (S : Sem T W) (p : List (Nat × Instr)) :
    Machine T W → List (List T) → List (List T) → Machine T W → Prop where
  | nil (mc) : Session S p mc [] [] mc
  | cons {mc mc1 mc' inputs rounds outs} : Runs S p inputs mc mc1 → Session S p mc1 rounds outs mc' →
    Session S p mc (inputs :: rounds) (mc1.outs :: outs) mc'

/-- The module itself called one time after the other. -/
def eagerSession (S : Sem T W) (consts : List (Nat × T)) (ins outs : List Nat) (body : Steps) :
    W → List (List T) → W × List (List T)
  | w, [] => (w, [])
  | w, inputs :: rounds =>
    let e := eager S consts ins body w inputs
    let r := eagerSession S consts ins outs body e.1 rounds
    (r.1, outs.map e.2 :: r.2)

/-- The tensors that ops produce. -/
def Steps.results : Steps → List Nat
  | .done => []
  | .op _ _ outs rest => outs ++ rest.results
  | .note rest => rest.results
  | .sub _ _ _ body rest => body.results ++ rest.results

theorem assign_of_not_mem {env : Nat → T} {us : List Nat} {ts : List T} {u : Nat} (h : u ∉ us) :
    assign env us ts u = env u := by
  induction us generalizing env ts with
  | nil => rfl
  | cons v us ih =>
    cases ts with
    | nil => rfl
    | cons t ts =>
      rw [List.mem_cons, not_or] at h
      rw [assign_cons, ih h.2, Function.update_of_ne h.1]

theorem eval_storage_keep {st : Nat → Nat} {u : Nat} : ∀ (x : Steps) (s : W × (Nat → T)),
    (∀ v ∈ x.results, st v ≠ u) → ((x.storage st).eval S s).2 u = s.2 u
  | .done, _, _ => rfl
  | .op _ ins outs rest, s, h => by
    show ((rest.storage st).eval S _).2 u = _
    rw [eval_storage_keep rest _ fun v hv => h v (by simp [Steps.results, hv])]
    refine assign_of_not_mem ?_
    intro hm
    obtain ⟨v, hv, he⟩ := List.mem_map.1 hm
    exact h v (by simp [Steps.results, hv]) he
  | .note rest, s, h => eval_storage_keep rest s h
  | .sub _ _ _ body rest, s, h => by
    show ((rest.storage st).eval S ((body.storage st).eval S s)).2 u = _
    rw [eval_storage_keep rest _ fun v hv => h v (by simp [Steps.results, hv]),
      eval_storage_keep body _ fun v hv => h v (by simp [Steps.results, hv])]

theorem writes_none_mem {st : Nat → Nat} : ∀ (vs : List Nat) {l : Nat → Option Nat} {u v : Nat},
    writes st l vs u = some v → (v ∈ vs ∧ st v = u) ∨ l u = some v
  | [], _, _, _, h => .inr h
  | a :: vs, l, u, v, h => by
    rcases writes_none_mem vs (l := Function.update l (st a) (some a)) h with ⟨h1, h2⟩ | h1
    · exact .inl ⟨List.mem_cons_of_mem _ h1, h2⟩
    · by_cases e : u = st a
      · subst e
        rw [Function.update_self] at h1
        cases h1
        exact .inl ⟨List.mem_cons_self .., rfl⟩
      · rw [Function.update_of_ne e] at h1
        exact .inr h1

/-- Any number of runs of a loaded program give the outputs and effects of as many calls of the module, provided no
op writes into the storage of a constant. -/
theorem C48_runs_of_a_loaded_program_partial {st : Nat → Nat} {abs : Nat → Name} {regs : List Nat} {m : Nat}
    {ins outs : List Nat} {body : Steps} {eagerMode : Bool} {p : List (Nat × Instr)}
    (hp : compile eagerMode (traceModule st abs regs m ins outs body) = some p) (hlen : p.length < 2 ^ 31)
    (har : body.arity S) (consts : List (Nat × T)) {l : Nat → Option Nat}
    (hfresh : body.fresh st (writes st (fun _ => none) (consts.map Prod.fst ++ ins)) = some l)
    (houts : ∀ v ∈ outs, l (st v) = some v)
    (hconst : ∀ q ∈ consts, ∀ v ∈ ins ++ body.results, st v ≠ st q.1) (w : W)
    (rounds : List (List T)) (hin : ∀ inputs ∈ rounds, inputs.length = ins.length) :
    ∃ mc', Session S p (loaded S w (consts.map fun q => (st q.1, q.2))) rounds
        (eagerSession S consts ins outs body w rounds).2 mc' ∧
      mc'.world = (eagerSession S consts ins outs body w rounds).1 := by
  have hw : writes st (fun _ => none) (consts.map Prod.fst ++ ins) =
      writes st (writes st (fun _ => none) (consts.map Prod.fst)) ins := by simp [writes]
  rw [hw] at hfresh
  have he : (loaded S w (consts.map fun q => (st q.1, q.2))).env =
      assign (fun _ => S.nil) ((consts.map Prod.fst).map st) (consts.map Prod.snd) := by
    simp [loaded, Function.comp_def]
  have key : ∀ (rounds : List (List T)) (mc : Machine T W), (∀ inputs ∈ rounds, inputs.length = ins.length) →
      Sim st (writes st (fun _ => none) (consts.map Prod.fst))
        (assign (fun _ => S.nil) (consts.map Prod.fst) (consts.map Prod.snd)) mc.env →
      mc.bad = false → mc.outs.length ≤ outs.length →
      ∃ mc', Session S p mc rounds (eagerSession S consts ins outs body mc.world rounds).2 mc' ∧
        mc'.world = (eagerSession S consts ins outs body mc.world rounds).1 := by
    intro rounds
    induction rounds with
    | nil => intro mc _ _ _ _; exact ⟨mc, .nil mc, rfl⟩
    | cons inputs rounds ih =>
      intro mc hin hsim hbad hout
      obtain ⟨mc1, h1, h2, h3, h4⟩ := runs_trace (S := S) hp hlen har hfresh houts
        (hin inputs (List.mem_cons_self ..)) hsim hbad hout
      have hb1 : mc1.bad = false := by obtain ⟨k, _, _, h⟩ := h1; exact h
      have hsim1 : Sim st (writes st (fun _ => none) (consts.map Prod.fst))
          (assign (fun _ => S.nil) (consts.map Prod.fst) (consts.map Prod.snd)) mc1.env := by
        intro u v huv
        obtain ⟨g1, g2⟩ := hsim u v huv
        refine ⟨g1, ?_⟩
        rcases writes_none_mem _ huv with ⟨g3, _⟩ | g3
        · obtain ⟨q, hq, rfl⟩ := List.mem_map.1 g3
          have hne := hconst q hq
          rw [h4, eval_storage_keep body _ fun v hv => by
            rw [← g1]; exact hne v (List.mem_append_right _ hv)]
          show assign mc.env (ins.map st) inputs u = _
          rw [assign_of_not_mem, g2]
          intro hm
          obtain ⟨v, hv, hve⟩ := List.mem_map.1 hm
          exact hne v (List.mem_append_left _ hv) (by rw [hve, g1])
        · cases g3
      obtain ⟨mc', h5, h6⟩ := ih mc1 (fun i hi => hin i (List.mem_cons_of_mem _ hi)) hsim1 hb1 (by rw [h3]; simp)
      refine ⟨mc', ?_, ?_⟩
      · have : (eagerSession S consts ins outs body mc.world (inputs :: rounds)).2 =
            mc1.outs :: (eagerSession S consts ins outs body mc1.world rounds).2 := by
          rw [h3, h2]; rfl
        rw [this]
        exact .cons h1 h5
      · rw [h6, h2]; rfl
  exact key rounds (loaded S w _) hin (by rw [he]; exact sim_consts st S.nil consts) rfl (by simp [loaded])

/-! ### C32: the eager memory solver -/

/-- In the order of execution, the solver leaves the ops unchanged and frees each tensor that is read exactly once,
directly after the last op that reads it; nothing else is freed (`Freed`). -/
theorem C32_solver_frees_after_last_use {st : Nat → Nat} {abs : Nat → Name} {regs : List Nat} {m : Nat}
    {ins outs : List Nat} {body : Steps} {eagerMode : Bool} {p : List (Nat × Instr)}
    (hp : compile eagerMode (traceModule st abs regs m ins outs body) = some p) {fuel : Nat}
    (hd : body.depth ≤ fuel) :
    ∃ r' ops ops', solve fuel (traceModule st abs regs m ins outs body) = some r' ∧
      order fuel (traceModule st abs regs m ins outs body) = some ops ∧ order fuel r' = some ops' ∧
      Freed ops ops' := by
  have hwf := wf_of_compile hp
  obtain ⟨G', h1, h2⟩ := solve_trace hwf regs ins outs hd
  exact ⟨_, _, _, h1, trace_order hwf regs ins outs hd, solve_order h2 regs ins outs hd,
    flatFree_freed _ (flat_plain st body) _ fun _ => rfl⟩

/-- The tensors that ops read. -/
def Steps.used : Steps → List Nat
  | .done => []
  | .op _ ins _ rest => ins ++ rest.used
  | .note rest => rest.used
  | .sub _ _ _ body rest => body.used ++ rest.used

theorem flat_reads (st : Nat → Nat) : ∀ (x : Steps), ∀ o ∈ x.flat st, ∀ u ∈ o.reads, ∃ v ∈ x.used, st v = u
  | .done, o, h => by simp [Steps.flat] at h
  | .op _ ins _ rest, o, h => by
    intro u hu
    rcases List.mem_cons.1 h with rfl | h
    · obtain ⟨v, hv, he⟩ := List.mem_map.1 hu
      exact ⟨v, List.mem_append_left _ hv, he⟩
    · obtain ⟨v, hv, he⟩ := flat_reads st rest o h u hu
      exact ⟨v, List.mem_append_right _ hv, he⟩
  | .note rest, o, h => by
    intro u hu
    rcases List.mem_cons.1 h with rfl | h
    · simp [Op.reads] at hu
    · exact flat_reads st rest o h u hu
  | .sub _ _ _ body rest, o, h => by
    intro u hu
    rcases List.mem_append.1 h with h | h
    · obtain ⟨v, hv, he⟩ := flat_reads st body o h u hu
      exact ⟨v, List.mem_append_left _ hv, he⟩
    · obtain ⟨v, hv, he⟩ := flat_reads st rest o h u hu
      exact ⟨v, List.mem_append_right _ hv, he⟩

/-- With the solver, the program still computes what the module computes, if no op reads the storage of a result.
(The full property has no such condition; it fails without it, see below.) -/
theorem C32_solved_module_is_eager_module_partial {st : Nat → Nat} {abs : Nat → Name} {regs : List Nat} {m : Nat}
    {ins outs : List Nat} {body : Steps} {eagerMode : Bool} {p : List (Nat × Instr)}
    (hp : compile eagerMode (traceModule st abs regs m ins outs body) = some p)
    {fuel : Nat} (hd : body.depth ≤ fuel) :
    ∃ r' p', solve fuel (traceModule st abs regs m ins outs body) = some r' ∧ compile eagerMode r' = some p' ∧
      (p'.length < 2 ^ 31 → body.arity S → ∀ (consts : List (Nat × T)) (l : Nat → Option Nat),
        body.fresh st (writes st (fun _ => none) (consts.map Prod.fst ++ ins)) = some l →
        (∀ v ∈ outs, l (st v) = some v) → (∀ v ∈ outs, ∀ v' ∈ body.used, st v ≠ st v') →
        ∀ (w : W) (inputs : List T), inputs.length = ins.length →
        ∃ mc', Runs S p' inputs (loaded S w (consts.map fun q => (st q.1, q.2))) mc' ∧
          mc'.world = (eager S consts ins body w inputs).1 ∧
          mc'.outs = outs.map (eager S consts ins body w inputs).2) := by
  have hwf := wf_of_compile hp
  obtain ⟨G', h1, h2⟩ := solve_trace hwf regs ins outs hd
  obtain ⟨p', hp', _⟩ := compile_run (S := S) h2.wf eagerMode (regs := regs) (ins := ins.map st)
    (outs := outs.map st) h2.main
  refine ⟨_, p', h1, hp', ?_⟩
  intro hlen har consts l hfresh houts hunused w inputs hin
  set mc := loaded S w (consts.map fun q => (st q.1, q.2)) with hmc
  have hw : writes st (fun _ => none) (consts.map Prod.fst ++ ins) =
      writes st (writes st (fun _ => none) (consts.map Prod.fst)) ins := by simp [writes]
  rw [hw] at hfresh
  have he : mc.env = assign (fun _ => S.nil) ((consts.map Prod.fst).map st) (consts.map Prod.snd) := by
    simp [hmc, loaded, Function.comp_def]
  have hE := traceF_exec (S := S) st G' body ((Names.init abs).next m).2 (fun u => uses u (body.flat st))
    (mc.world, assign mc.env (ins.map st) inputs) h2.subs
  obtain ⟨mc', r1, r2, r3, r4⟩ := runs_of_exec h2.wf h2.main hp' hlen (by simpa using hin) hE rfl (by simp [hmc, loaded])
  have hsim := sim_consts st S.nil consts
  rw [← he] at hsim
  obtain ⟨e1, e2⟩ := eval_storage (S := S) (st := st) body
    (s := (mc.world, assign (assign (fun _ => S.nil) (consts.map Prod.fst) (consts.map Prod.snd)) ins inputs))
    (cs := (mc.world, assign mc.env (ins.map st) inputs)) har hfresh rfl (hsim.assign ins inputs hin)
  obtain ⟨f1, f2⟩ := flatEval_free (S := S) (fun u => ∃ v ∈ body.used, st v = u) (body.flat st)
    (fun u => uses u (body.flat st)) (mc.world, assign mc.env (ins.map st) inputs)
    (mc.world, assign mc.env (ins.map st) inputs) (flat_plain st body) (fun _ => rfl) (flat_reads st body) rfl
    (fun _ _ => rfl)
  rw [flatEval_flat] at f1 f2
  refine ⟨mc', r1, ?_, ?_⟩
  · rw [r2, f1, ← e1]; rfl
  · rw [r4, List.map_map]
    refine List.map_congr_left fun v hv => ?_
    show (flatEval S _ _).2 (st v) = _
    rw [f2 (st v), (e2 _ _ (houts v hv)).2]
    · rfl
    · rintro ⟨v', hv', he'⟩
      exact hunused v hv v' hv' he'.symm

end Verif.Compile
