import Verif.Compile.Index
/- The interpreter on lowered code (C46). -/
namespace Verif.Compile

variable {T W : Type}

/-- All rewritings of an op of a graph. -/
def low (o : Op) : Op := lowerCall (lowerRet (lowerFree (lowerLinalg o)))

/-- Executing the ops of a graph of the module `G` (pairs of a name and a body ending with the return op): the
meaning of the graph IR. -/
inductive Exec (S : Sem T W) (G : List (Name × List Op)) :
    List Op → W × (Nat → T) → W × (Nat → T) → Prop where
  | nil (s) : Exec S G [] s s
  | linalg {o ins outs rest s s'} :
    Exec S G rest ((S.exec o s.1 (ins.map s.2)).1, assign s.2 outs (S.exec o s.1 (ins.map s.2)).2) s' →
    Exec S G (.linalg o ins outs :: rest) s s'
  | tfree {u rest s s'} : Exec S G rest (s.1, Function.update s.2 u S.nil) s' → Exec S G (.tfree u :: rest) s s'
  | dbg {rest s s'} : Exec S G rest s s' → Exec S G (.dbg :: rest) s s'
  | call {n i o b rest s s1 s'} : (n, b ++ [.cfret]) ∈ G → Exec S G b s s1 → Exec S G rest s1 s' →
    Exec S G (.call n i o :: rest) s s'

theorem Exec.append {S : Sem T W} {G : List (Name × List Op)} {a b : List Op} {s s1 s' : W × (Nat → T)}
    (h : Exec S G a s s1) (h' : Exec S G b s1 s') : Exec S G (a ++ b) s s' := by
  induction h with
  | nil => exact h'
  | linalg _ ih => exact .linalg (ih h')
  | tfree _ ih => exact .tfree (ih h')
  | dbg _ ih => exact .dbg (ih h')
  | call hm hb _ _ ih => exact .call hm hb (ih h')

theorem steps_succ (S : Sem T W) (p : List (Nat × Instr)) (inputs : List T) (k : Nat) (s : Machine T W) :
    steps S p inputs (k + 1) s = steps S p inputs k (step S p inputs s) := rfl

theorem steps_add (S : Sem T W) (p : List (Nat × Instr)) (inputs : List T) (a b : Nat) (s : Machine T W) :
    steps S p inputs (a + b) s = steps S p inputs b (steps S p inputs a s) := by
  induction a generalizing s with
  | zero => simp [steps]
  | succ a ih => rw [Nat.succ_add, steps_succ, steps_succ, ih]

variable {S : Sem T W} {p : List (Nat × Instr)} {inputs : List T} {code : List Op}

/-- One step at an op of the code. -/
theorem step_at (hp : index code = some p) {pre post : List Op} {o : Op} (hc : code = pre ++ o :: post)
    (ho : o.isProgram = true) {i : Instr} {m : List (Name × Nat)} (hm : labelIds (withIds code 0) = some m)
    (hi : instr m (plen pre) o = some i) {mc mc' : Machine T W} (hpc : mc.pc = plen pre) (hh : mc.halted = false)
    (he : execInstr S inputs mc i = mc') (h' : mc'.halted = true ∨ mc'.pc < plen code) :
    step S p inputs mc = mc' := by
  obtain ⟨m', hm', hf, hl⟩ := fetch_index hp hc ho
  rw [hm] at hm'
  cases hm'
  rw [hi] at hf
  unfold step
  rw [hh]
  simp only [Bool.false_eq_true, if_false]
  rw [hpc, Option.some.inj hf, he, hl]
  rcases h' with h' | h'
  · simp [h']
  · simp [h']

theorem index_labels (hp : index code = some p) : ∃ m, labelIds (withIds code 0) = some m := by
  rw [index] at hp
  cases hm : labelIds (withIds code 0) with
  | none => rw [hm] at hp; simp at hp
  | some m => exact ⟨m, rfl⟩

theorem exec_machine {G : List (Name × List Op)} (hp : index code = some p) (hlen : plen code < 2 ^ 31)
    (hG : ∀ n b, (n, b) ∈ G → ∃ pre post, code = pre ++ (.label (entry n) :: b.map low) ++ post)
    {ops : List Op} {s s' : W × (Nat → T)} (hE : Exec S G ops s s') :
    ∀ (pre post : List Op) (mc : Machine T W), code = pre ++ ops.map low ++ post → 0 < plen post →
      mc.pc = plen pre → mc.halted = false → mc.world = s.1 → mc.env = s.2 →
      ∃ k, steps S p inputs k mc =
        { mc with pc := plen pre + plen (ops.map low), world := s'.1, env := s'.2 } := by
  obtain ⟨m, hm⟩ := index_labels hp
  induction hE with
  | nil s =>
    intro pre post mc _ _ hpc _ hw he
    refine ⟨0, ?_⟩
    simp only [steps, List.map_nil, plen_nil, Nat.add_zero, ← hpc, ← hw, ← he]
  | @linalg o ins outs rest s s' _ ih =>
    intro pre post mc hc hpost hpc hh hw he
    have hc' : code = pre ++ low (.linalg o ins outs) :: (rest.map low ++ post) := by rw [hc]; simp
    have hl : plen code = plen pre + (1 + plen (rest.map low)) + plen post := by
      rw [hc, List.map_cons, plen_append, plen_append, plen_cons]; simp [low, lowerLinalg, lowerFree, lowerRet, lowerCall, Op.isProgram]; omega
    have hs := step_at (S := S) (inputs := inputs) (i := .launch o ins outs) hp hc' rfl hm rfl hpc hh rfl
      (.inr (by simp only [execInstr]; omega))
    obtain ⟨k, hk⟩ := ih (pre ++ [low (.linalg o ins outs)]) post (step S p inputs mc) (by rw [hc]; simp) hpost
      (by rw [hs]; simp only [execInstr, hpc, plen_append, plen_cons, plen_nil]; rfl)
      (by rw [hs]; exact hh) (by rw [hs]; simp only [execInstr, hw, he]) (by rw [hs]; simp only [execInstr, hw, he])
    refine ⟨k + 1, ?_⟩
    rw [steps_succ, hk, hs]
    have e : plen (pre ++ [low (.linalg o ins outs)]) + plen (rest.map low) =
        plen pre + plen ((Op.linalg o ins outs :: rest).map low) := by
      rw [List.map_cons, plen_cons, plen_append, plen_cons, plen_nil]; omega
    rw [e]
    rfl
  | @tfree u rest s s' _ ih =>
    intro pre post mc hc hpost hpc hh hw he
    have hc' : code = pre ++ low (.tfree u) :: (rest.map low ++ post) := by rw [hc]; simp
    have hl : plen code = plen pre + (1 + plen (rest.map low)) + plen post := by
      rw [hc, List.map_cons, plen_append, plen_append, plen_cons]; simp [low, lowerLinalg, lowerFree, lowerRet, lowerCall, Op.isProgram]; omega
    have hs := step_at (S := S) (inputs := inputs) (i := .free u) hp hc' rfl hm rfl hpc hh rfl
      (.inr (by simp only [execInstr]; omega))
    obtain ⟨k, hk⟩ := ih (pre ++ [low (.tfree u)]) post (step S p inputs mc) (by rw [hc]; simp) hpost
      (by rw [hs]; simp only [execInstr, hpc, plen_append, plen_cons, plen_nil]; rfl)
      (by rw [hs]; exact hh) (by rw [hs]; simp only [execInstr, hw]) (by rw [hs]; simp only [execInstr, he])
    refine ⟨k + 1, ?_⟩
    rw [steps_succ, hk, hs]
    have e : plen (pre ++ [low (.tfree u)]) + plen (rest.map low) =
        plen pre + plen ((Op.tfree u :: rest).map low) := by
      rw [List.map_cons, plen_cons, plen_append, plen_cons, plen_nil]; omega
    rw [e]
    rfl
  | @dbg rest s s' _ ih =>
    intro pre post mc hc hpost hpc hh hw he
    have e0 : plen (pre ++ [low .dbg]) = plen pre := by
      rw [plen_append, plen_cons, plen_nil]; rfl
    obtain ⟨k, hk⟩ := ih (pre ++ [low .dbg]) post mc (by rw [hc]; simp) hpost (by rw [hpc, e0]) hh hw he
    refine ⟨k, ?_⟩
    rw [hk, e0, List.map_cons, plen_cons]
    rfl
  | @call n i o b rest s s1 s' hmem _ _ ihb ih =>
    intro pre post mc hc hpost hpc hh hw he
    have hc' : code = pre ++ low (.call n i o) :: (rest.map low ++ post) := by rw [hc]; simp
    have hl : plen code = plen pre + (1 + plen (rest.map low)) + plen post := by
      rw [hc, List.map_cons, plen_append, plen_append, plen_cons]; simp [low, lowerLinalg, lowerFree, lowerRet, lowerCall, Op.isProgram]; omega
    obtain ⟨bpre, bpost, hbc⟩ := hG _ _ hmem
    have hbc' : code = bpre ++ .label (entry n) :: ((b ++ [Op.cfret]).map low ++ bpost) := by rw [hbc]; simp
    have hlook := label_lookup hm hbc'
    have hbl : plen code = plen bpre + 1 + plen (b.map low) + 1 + plen bpost := by
      rw [hbc]
      simp only [List.map_append, List.map_cons, List.map_nil, plen_append, plen_cons, plen_nil]
      simp [low, lowerLinalg, lowerFree, lowerRet, lowerCall, Op.isProgram]; omega
    -- jump
    have hs1 : step S p inputs mc = { mc with stack := plen pre :: mc.stack, pc := plen bpre } := by
      refine step_at (S := S) (inputs := inputs) (i := .jump (offset (plen bpre) (plen pre))) hp hc' rfl hm ?_ hpc hh ?_
        (.inr ?_)
      · show (match List.lookup (entry n) m with
          | none => none
          | some t => some (Instr.jump (offset t (plen pre)))) = _
        rw [hlook]
      · simp only [execInstr, hpc]
        rw [pcAdd_offset (by omega) (by omega)]
      · show plen bpre < plen code
        omega
    -- label
    have hs2 : step S p inputs { mc with stack := plen pre :: mc.stack, pc := plen bpre } =
        { mc with stack := plen pre :: mc.stack, pc := plen bpre + 1 } := by
      refine step_at (S := S) (inputs := inputs) (i := .label) hp hbc' rfl hm rfl rfl hh rfl (.inr ?_)
      show plen bpre + 1 < plen code
      omega
    -- body
    obtain ⟨k1, hk1⟩ := ihb (bpre ++ [.label (entry n)]) (low .cfret :: bpost)
      { mc with stack := plen pre :: mc.stack, pc := plen bpre + 1 } (by rw [hbc]; simp)
      (by rw [plen_cons]; show 0 < plen bpost + 1; omega)
      (by show plen bpre + 1 = _; rw [plen_append, plen_cons, plen_nil]; rfl) hh hw he
    have e1 : plen (bpre ++ [Op.label (entry n)]) = plen bpre + 1 := by
      rw [plen_append, plen_cons, plen_nil]; rfl
    rw [e1] at hk1
    -- return
    have hs3 : step S p inputs { mc with
        stack := plen pre :: mc.stack, pc := plen bpre + 1 + plen (b.map low), world := s1.1, env := s1.2 } =
        { mc with pc := plen pre + 1, world := s1.1, env := s1.2 } := by
      refine step_at (S := S) (inputs := inputs) (i := .ret) hp
        (pre := bpre ++ .label (entry n) :: b.map low) (o := low .cfret) (post := bpost) (by rw [hbc]; simp) rfl hm rfl
        ?_ hh rfl (.inr ?_)
      · show _ = plen (bpre ++ _ :: _)
        rw [plen_append, plen_cons]
        show plen bpre + 1 + plen (b.map low) = plen bpre + (plen (b.map low) + 1)
        omega
      · show plen pre + 1 < plen code
        omega
    obtain ⟨k2, hk2⟩ := ih (pre ++ [low (.call n i o)]) post { mc with pc := plen pre + 1, world := s1.1, env := s1.2 }
      (by rw [hc]; simp) hpost (by show plen pre + 1 = _; rw [plen_append, plen_cons, plen_nil]; rfl) hh rfl rfl
    refine ⟨1 + (1 + (k1 + (1 + k2))), ?_⟩
    rw [steps_add, steps_add, steps_add, steps_add]
    have one : ∀ s : Machine T W, steps S p inputs 1 s = step S p inputs s := fun _ => rfl
    rw [one, one, one, hs1, hs2, hk1, hs3, hk2]
    have e : plen (pre ++ [low (.call n i o)]) + plen (rest.map low) =
        plen pre + plen ((Op.call n i o :: rest).map low) := by
      rw [List.map_cons, plen_cons, plen_append, plen_cons, plen_nil]; omega
    rw [e]

/-! ### The code of a module -/

/-- The module regions that tracing produces and the passes work on. -/
def mkRegion (regs : List Nat) (n0 : Name) (ins outs : List Nat) (G : List (Name × List Op)) : List Top :=
  [.graph initName (regs.map .register), .graph deinitName [], .op (.call n0 ins outs)] ++
    G.map fun q => .graph q.1 q.2

/-- The ops of a traced graph body. -/
def Op.isGraph : Op → Bool
  | .linalg .. | .call .. | .tfree _ | .cfret | .dbg => true
  | _ => false

/-- What tracing guarantees about the graphs: names distinct and not reserved, bodies of graph ops that call graphs
of the module. -/
structure Wf (n0 : Name) (G : List (Name × List Op)) : Prop where
  nodup : (G.map Prod.fst).Nodup
  free : ∀ q ∈ G, reserved q.1 = false
  ops : ∀ q ∈ G, ∀ o ∈ q.2, o.isGraph = true
  calls : ∀ q ∈ G, ∀ n i o, Op.call n i o ∈ q.2 → n ∈ G.map Prod.fst
  main : n0 ∈ G.map Prod.fst

def header (n0 : Name) (ins outs : List Nat) : List Op :=
  (ins.zipIdx.map fun q => .bind q.2 q.1 true) ++ .jump (entry n0) ::
    ((outs.zipIdx.reverse.map fun q => .bind q.2 q.1 false) ++ [.exit])

def blocks (G : List (Name × List Op)) : List Op :=
  G.flatMap fun q => .label (entry q.1) :: q.2.map low

theorem topCalls_graphs (G : List (Name × List Op)) :
    topCalls (G.map fun q => Top.graph q.1 q.2) = [] := by
  induction G with
  | nil => rfl
  | cons q G ih => simp [topCalls]

theorem map_lower (regs : List Nat) (n0 : Name) (ins outs : List Nat) (G : List (Name × List Op)) :
    mapGraphOps lowerRet (mapOps lowerFree (mapOps lowerLinalg (mkRegion regs n0 ins outs G))) =
      mkRegion regs n0 ins outs (G.map fun q => (q.1, q.2.map fun o => lowerRet (lowerFree (lowerLinalg o)))) := by
  simp [mkRegion, mapGraphOps, mapOps, lowerLinalg, lowerFree, lowerRet, Function.comp_def]

theorem flatten_append (a b : List Top) : flatten (a ++ b) = flatten a ++ flatten b := by
  simp [flatten]

theorem flatten_graphs (G : List (Name × List Op)) :
    flatten (graphsToFragments (bindCall (G.map fun q => Top.graph q.1 (q.2.map fun o =>
      lowerRet (lowerFree (lowerLinalg o)))))) = blocks (G.filter fun q => !reserved q.1) := by
  induction G with
  | nil => rfl
  | cons q G ih =>
    by_cases hr : reserved q.1 = true
    · rw [List.filter_cons_of_neg (by simp [hr])]
      simp only [List.map_cons, bindCall, List.flatMap_cons, graphsToFragments, List.map_append, flatten,
        List.flatMap_append, blocks] at ih ⊢
      rw [ih]
      simp [hr]
    · rw [List.filter_cons_of_pos (by simp [hr])]
      simp only [List.map_cons, bindCall, List.flatMap_cons, graphsToFragments, List.map_append, flatten,
        List.flatMap_append, blocks] at ih ⊢
      rw [ih]
      simp [hr, low, lowerCall]

theorem flatten_program (l : List Op) (h : ∀ o ∈ l, o.isProgram = true) :
    flatten (graphsToFragments (l.map .op)) = l := by
  induction l with
  | nil => rfl
  | cons o l ih =>
    have ho := h o (by simp)
    have ih' := ih fun o ho => h o (by simp [ho])
    simp only [List.map_cons, graphsToFragments, flatten, List.flatMap_cons] at ih' ⊢
    rw [ih']
    cases o <;> simp_all [Op.isProgram, lowerCall]

/-- The code that lowering produces. -/
theorem lower_filter (n0 : Name) (G : List (Name × List Op)) (regs ins outs : List Nat) :
    lower (mkRegion regs n0 ins outs G) =
      some (header n0 ins outs ++ blocks (G.filter fun q => !reserved q.1)) := by
  have e1 : (topCalls (mkRegion regs n0 ins outs (G.map fun q =>
      (q.1, q.2.map fun o => lowerRet (lowerFree (lowerLinalg o)))))).length = 1 := by
    have := topCalls_graphs (G.map fun q => (q.1, q.2.map fun o => lowerRet (lowerFree (lowerLinalg o))))
    simp only [mkRegion, topCalls, List.filterMap_append] at this ⊢
    rw [this]
    simp
  rw [lower]
  simp only [map_lower]
  rw [if_pos e1]
  congr 1
  have e2 : ∀ a b : List Top, bindCall (a ++ b) = bindCall a ++ bindCall b := by simp [bindCall]
  have e3 : ∀ a b : List Top, graphsToFragments (a ++ b) = graphsToFragments a ++ graphsToFragments b := by
    simp [graphsToFragments]
  rw [mkRegion, e2, e3, flatten_append]
  congr 1
  · have hi : reserved initName = true := by decide
    have hd : reserved deinitName = true := by decide
    have e4 : ∀ a b : Name, ∀ x : List Op, ∀ y : List Op, ∀ t : Top, bindCall [.graph a x, .graph b y, t] =
      .graph a x :: .graph b y :: bindCall [t] := by intros; simp [bindCall]
    have e5 : ∀ a b : Name, ∀ x y : List Op, ∀ t : List Top, reserved a = true → reserved b = true →
        flatten (graphsToFragments (.graph a x :: .graph b y :: t)) = flatten (graphsToFragments t) := by
      intro a b x y t ha hb
      simp [graphsToFragments, flatten, ha, hb]
    rw [e4, e5 _ _ _ _ _ hi hd]
    have e6 : bindCall [.op (.call n0 ins outs)] =
        ((ins.zipIdx.map fun q => Op.bind q.2 q.1 true).map Top.op) ++ (.op (.call n0 ins outs) ::
          (((outs.zipIdx.reverse.map fun q : Nat × Nat => Op.bind q.2 q.1 false) ++ [Op.exit]).map Top.op)) := by
      simp [bindCall, Function.comp_def]
    rw [e6, e3, flatten_append, flatten_program _ (by
      intro o ho
      obtain ⟨q, _, rfl⟩ := List.mem_map.1 ho
      rfl), header]
    congr 1
    have e7 : ∀ t : List Top, flatten (graphsToFragments (.op (.call n0 ins outs) :: t)) =
        .jump (entry n0) :: flatten (graphsToFragments t) := by
      intro t; simp [graphsToFragments, flatten, lowerCall, Op.isProgram]
    rw [e7, flatten_program]
    intro o ho
    simp only [List.mem_append, List.mem_map, List.mem_singleton] at ho
    rcases ho with ⟨q, _, rfl⟩ | rfl <;> rfl
  · rw [List.map_map]
    exact flatten_graphs G

theorem lower_mkRegion {n0 : Name} {G : List (Name × List Op)} (h : Wf n0 G) (regs ins outs : List Nat) :
    lower (mkRegion regs n0 ins outs G) = some (header n0 ins outs ++ blocks G) := by
  rw [lower_filter, List.filter_eq_self.2]
  intro q hq
  simp [h.free q hq]

theorem entry_inj {a b : Name} (h : entry a = entry b) : a = b := List.append_cancel_right h

theorem withIds_mem_iff {l : List Op} {k : Nat} {o : Op} :
    (∃ i, (i, o) ∈ withIds l k) ↔ o ∈ l ∧ o.isProgram = true := by
  constructor
  · rintro ⟨i, h⟩
    obtain ⟨pre, post, rfl, _, h3⟩ := mem_withIds i h
    exact ⟨by simp, h3⟩
  · rintro ⟨h1, h2⟩
    obtain ⟨pre, post, rfl⟩ := List.append_of_mem h1
    exact ⟨k + plen pre, by rw [withIds_get h2]; simp⟩

/-- The labels of a code, in order. -/
def labels (l : List Op) : List Name :=
  l.filterMap fun o => match o with
    | .label n => some n
    | _ => none

theorem labelIds_of_nodup {l : List Op} (h : (labels l).Nodup) (k : Nat) :
    ∃ m, labelIds (withIds l k) = some m ∧ m.map Prod.fst = labels l := by
  induction l generalizing k with
  | nil => exact ⟨[], rfl, rfl⟩
  | cons o l ih =>
    cases o with
    | label a =>
      have h' : a ∉ labels l ∧ (labels l).Nodup := by simpa [labels] using h
      obtain ⟨m, h1, h2⟩ := ih h'.2 (k + 1)
      refine ⟨(a, k) :: m, ?_, by simp [labels] at h2 ⊢; exact h2⟩
      rw [withIds, if_pos (by rfl), labelIds, h1]
      simp only
      rw [if_neg (by rw [h2]; exact h'.1)]
    | _ =>
      have h' : (labels l).Nodup := by simpa [labels] using h
      rw [withIds]
      split_ifs with hp
      · obtain ⟨m, h1, h2⟩ := ih h' (k + 1)
        refine ⟨m, ?_, by simp [labels] at h2 ⊢; exact h2⟩
        rw [labelIds]
        · exact h1
        · simp
      · obtain ⟨m, h1, h2⟩ := ih h' k
        exact ⟨m, h1, by simp [labels] at h2 ⊢; exact h2⟩

theorem labelIds_labels {l : List Op} {k : Nat} {m : List (Name × Nat)} (h : labelIds (withIds l k) = some m) :
    m.map Prod.fst = labels l := by
  induction l generalizing k m with
  | nil => cases h; rfl
  | cons o l ih =>
    by_cases hp : o.isProgram = true
    · rw [withIds, if_pos hp] at h
      cases o with
      | label a =>
        rw [labelIds] at h
        cases hl : labelIds (withIds l (k + 1)) with
        | none => rw [hl] at h; cases h
        | some m' =>
          rw [hl] at h
          simp only at h
          split_ifs at h
          cases h
          have := ih hl
          simp [labels] at this ⊢
          exact this
      | _ =>
        rw [labelIds] at h
        · have := ih h
          simp [labels] at this ⊢
          exact this
        · simp
    · rw [withIds, if_neg hp] at h
      have := ih h
      cases o <;> first | exact absurd rfl hp | (simp [labels] at this ⊢; exact this)

/-- What a successful indexing says about the code. -/
theorem index_some {code : List Op} {p : List (Nat × Instr)} (h : index code = some p) :
    (labels code).Nodup ∧ ∀ l, Op.jump l ∈ code → l ∈ labels code := by
  rw [index] at h
  cases hm : labelIds (withIds code 0) with
  | none => rw [hm] at h; cases h
  | some m =>
    rw [hm] at h
    simp only at h
    refine ⟨by rw [← labelIds_labels hm]; exact labelIds_nodup hm, ?_⟩
    intro l hl
    obtain ⟨i, hi⟩ := withIds_mem_iff.2 (⟨hl, rfl⟩ : Op.jump l ∈ code ∧ (Op.jump l).isProgram = true)
    obtain ⟨a, b, hab⟩ := List.append_of_mem hi
    obtain ⟨_, e, _, -, he, -⟩ := mapM_spec h a (i, Op.jump l) b hab
    rw [← labelIds_labels hm]
    cases hk : m.lookup l with
    | none => simp [instr, hk] at he
    | some t =>
      clear h he hi hab hm
      induction m with
      | nil => cases hk
      | cons x m ih =>
        rw [List.lookup_cons] at hk
        by_cases hx : l = x.1
        · simp [hx]
        · have hb : (l == x.1) = false := by simpa using hx
          rw [hb] at hk
          simp only at hk
          exact List.mem_cons_of_mem _ (ih hk)

/-- Indexing succeeds exactly when labels are distinct and every jump names a label. -/
theorem index_isSome {code : List Op} (h1 : (labels code).Nodup) (h2 : ∀ l, Op.jump l ∈ code → l ∈ labels code) :
    ∃ p, index code = some p := by
  obtain ⟨m, hm, hn⟩ := labelIds_of_nodup h1 0
  rw [index, hm]
  refine mapM_isSome fun q hq => ?_
  obtain ⟨hmem, hpr⟩ := withIds_mem_iff.1 ⟨q.1, hq⟩
  rw [Option.isSome_map]
  cases hq2 : q.2 with
  | jump l =>
    rw [hq2] at hmem
    have hl := h2 l hmem
    rw [← hn] at hl
    obtain ⟨e, he, rfl⟩ := List.mem_map.1 hl
    have := lookup_of_mem (labelIds_nodup hm) (n := e.1) (k := e.2) he
    simp [instr, this]
  | linalg _ _ _ => rw [hq2] at hpr; cases hpr
  | call _ _ _ => rw [hq2] at hpr; cases hpr
  | tfree _ => rw [hq2] at hpr; cases hpr
  | cfret => rw [hq2] at hpr; cases hpr
  | dbg => rw [hq2] at hpr; cases hpr
  | register _ => rw [hq2] at hpr; cases hpr
  | _ => rfl

theorem labels_append (a b : List Op) : labels (a ++ b) = labels a ++ labels b := by simp [labels]

theorem labels_header (n0 : Name) (ins outs : List Nat) : labels (header n0 ins outs) = [] := by
  have h1 : ∀ (l : List (Nat × Nat)) b, labels (l.map fun q => Op.bind q.2 q.1 b) = [] := by
    intro l b
    induction l with
    | nil => rfl
    | cons q l ih => simp [labels]
  rw [header, labels_append, h1, List.nil_append]
  have : ∀ l, labels (Op.jump (entry n0) :: l) = labels l := by intro l; simp [labels]
  rw [this, labels_append, h1]
  rfl

theorem labels_low {b : List Op} (h : ∀ o ∈ b, o.isGraph = true) : labels (b.map low) = [] := by
  induction b with
  | nil => rfl
  | cons o b ih =>
    have ih' := ih fun o ho => h o (by simp [ho])
    have ho := h o (by simp)
    have : labels (low o :: b.map low) = labels (b.map low) := by
      cases o <;> first | rfl | cases ho
    rw [List.map_cons, this, ih']

theorem labels_blocks {G : List (Name × List Op)} (h : ∀ q ∈ G, ∀ o ∈ q.2, o.isGraph = true) :
    labels (blocks G) = G.map fun q => entry q.1 := by
  induction G with
  | nil => rfl
  | cons q G ih =>
    have ih' := ih fun q hq => h q (by simp [hq])
    rw [blocks, List.flatMap_cons, labels_append]
    rw [blocks] at ih'
    rw [ih']
    have : labels (Op.label (entry q.1) :: q.2.map low) = [entry q.1] := by
      have := labels_low (h q (by simp))
      simp only [labels, List.filterMap_cons] at this ⊢
      rw [this]
    rw [this]
    simp

/-- Well-formed modules compile. -/
theorem code_index {n0 : Name} {G : List (Name × List Op)} (h : Wf n0 G) (pre : List Op)
    (hpre : labels pre = []) (hj : ∀ l, Op.jump l ∉ pre) (ins outs : List Nat) :
    ∃ p, index (pre ++ (header n0 ins outs ++ blocks G)) = some p := by
  have hl : labels (pre ++ (header n0 ins outs ++ blocks G)) = G.map fun q => entry q.1 := by
    rw [labels_append, labels_append, hpre, labels_header, labels_blocks h.ops]; rfl
  refine index_isSome ?_ ?_
  · rw [hl]
    have : (G.map fun q => entry q.1) = (G.map Prod.fst).map entry := by simp
    rw [this]
    exact h.nodup.map fun _ _ => entry_inj
  · intro l hm
    rw [hl]
    have key : ∀ n, n ∈ G.map Prod.fst → entry n ∈ G.map fun q => entry q.1 := by
      intro n hn
      obtain ⟨q, hq, rfl⟩ := List.mem_map.1 hn
      exact List.mem_map.2 ⟨q, hq, rfl⟩
    rcases List.mem_append.1 hm with hm | hm
    · exact absurd hm (hj l)
    rcases List.mem_append.1 hm with hm | hm
    · rw [header] at hm
      have : l = entry n0 := by
        rcases List.mem_append.1 hm with hm | hm
        · obtain ⟨q, _, hq⟩ := List.mem_map.1 hm; cases hq
        · rcases List.mem_cons.1 hm with hm | hm
          · cases hm; rfl
          · rcases List.mem_append.1 hm with hm | hm
            · obtain ⟨q, _, hq⟩ := List.mem_map.1 hm; cases hq
            · simp at hm
      rw [this]
      exact key n0 h.main
    · rw [blocks, List.mem_flatMap] at hm
      obtain ⟨q, hq, hm⟩ := hm
      rcases List.mem_cons.1 hm with hm | hm
      · cases hm
      · obtain ⟨o, ho, hlo⟩ := List.mem_map.1 hm
        have hg := h.ops q hq o ho
        cases o with
        | call n i u =>
          simp [low, lowerLinalg, lowerFree, lowerRet, lowerCall] at hlo
          rw [← hlo]
          exact key n (h.calls q hq n i u ho)
        | _ => simp_all [low, lowerLinalg, lowerFree, lowerRet, lowerCall, Op.isGraph]

theorem block_at {G : List (Name × List Op)} {q : Name × List Op} (h : q ∈ G) :
    ∃ pre post, blocks G = pre ++ (.label (entry q.1) :: q.2.map low) ++ post := by
  obtain ⟨a, b, rfl⟩ := List.append_of_mem h
  exact ⟨blocks a, blocks b, by simp [blocks]⟩

end Verif.Compile
