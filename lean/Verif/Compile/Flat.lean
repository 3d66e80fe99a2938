import Verif.Compile.Trace
/- The eager memory solver on the ops in execution order (C32). -/
namespace Verif.Compile

variable {T W : Type} {S : Sem T W}

/-! ### Execution order -/

/-- The tensors an op reads. -/
def Op.reads : Op → List Nat
  | .linalg _ ins _ => ins
  | _ => []

/-- How often the ops read `u`. -/
def uses (u : Nat) (ops : List Op) : Nat := (ops.flatMap Op.reads).count u

/-- The ops of a graph in the order they are executed, with calls replaced by the ops of the called graph. -/
def inlineStep (r : List Top) (call : List Op → Option (List Op)) : List Op → Option (List Op)
  | [] => some []
  | .cfret :: _ => some []
  | .call n _ _ :: rest =>
    match lookupGraph r n with
    | none => none
    | some b =>
      match call b, inlineStep r call rest with
      | some x, some y => some (x ++ y)
      | _, _ => none
  | o :: rest =>
    match inlineStep r call rest with
    | none => none
    | some y => some (o :: y)

def inlineOps (r : List Top) : Nat → List Op → Option (List Op)
  | 0 => inlineStep r fun _ => none
  | fuel + 1 => inlineStep r (inlineOps r fuel)

/-- The ops of the module in execution order. -/
def order (fuel : Nat) (r : List Top) : Option (List Op) :=
  match lastCall r with
  | none => none
  | some n =>
    match lookupGraph r n with
    | none => none
    | some b => inlineOps r fuel b

/-! ### Frees in a list of ops -/

theorem uses_append (u : Nat) (a b : List Op) : uses u (a ++ b) = uses u a + uses u b := by simp [uses]
theorem uses_cons (u : Nat) (o : Op) (b : List Op) : uses u (o :: b) = o.reads.count u + uses u b := by simp [uses]
theorem uses_nil (u : Nat) : uses u [] = 0 := rfl

theorem countIns_apply (c : Nat → Nat) (ins : List Nat) (u : Nat) : countIns c ins u = c u + ins.count u := by
  induction ins generalizing c with
  | nil => rfl
  | cons v ins ih =>
    have : countIns c (v :: ins) = countIns (Function.update c v (c v + 1)) ins := rfl
    rw [this, ih, List.count_cons]
    by_cases h : u = v
    · subst h; simp; omega
    · rw [Function.update_of_ne h]
      have : (v == u) = false := by simpa using fun e => h e.symm
      rw [this]; simp

def Op.isFree : Op → Bool
  | .tfree _ => true
  | _ => false

def freeStep (s : (Nat → Nat) × List Op) (u : Nat) : (Nat → Nat) × List Op :=
  (Function.update s.1 u (s.1 u - 1), if s.1 u = 1 then .tfree u :: s.2 else s.2)

theorem freeIns_eq (c : Nat → Nat) (ins : List Nat) : freeIns c ins = ins.foldl freeStep (c, []) := rfl

theorem freeIns_fst (ins : List Nat) (c : Nat → Nat) (acc : List Op) (u : Nat) :
    (ins.foldl freeStep (c, acc)).1 u = c u - ins.count u := by
  induction ins generalizing c acc with
  | nil => rfl
  | cons v ins ih =>
    rw [List.foldl_cons, freeStep]
    simp only
    rw [ih, List.count_cons]
    by_cases h : u = v
    · subst h; simp; omega
    · rw [Function.update_of_ne h]
      have : (v == u) = false := by simpa using fun e => h e.symm
      rw [this]; simp

theorem freeIns_snd (ins : List Nat) (c : Nat → Nat) (acc : List Op) (hc : ∀ u, ins.count u ≤ c u) :
    ∃ F, (ins.foldl freeStep (c, acc)).2 = F ++ acc ∧ (∀ o ∈ F, o.isFree = true) ∧
      ∀ u, F.count (Op.tfree u) = if 0 < ins.count u ∧ c u = ins.count u then 1 else 0 := by
  induction ins generalizing c acc with
  | nil => exact ⟨[], rfl, by simp, by simp⟩
  | cons v ins ih =>
    rw [List.foldl_cons, freeStep]
    simp only
    have hv := hc v
    rw [List.count_cons_self] at hv
    obtain ⟨F, h1, h2, h3⟩ := ih (Function.update c v (c v - 1)) (if c v = 1 then .tfree v :: acc else acc) (by
      intro u
      by_cases h : u = v
      · subst h; simp; omega
      · rw [Function.update_of_ne h]
        have := hc u
        rw [List.count_cons_of_ne (fun e => h e.symm)] at this
        exact this)
    by_cases h1v : c v = 1
    · rw [if_pos h1v] at h1
      refine ⟨F ++ [.tfree v], by rw [if_pos h1v, h1]; simp, ?_, ?_⟩
      · intro o ho
        rcases List.mem_append.1 ho with ho | ho
        · exact h2 o ho
        · rw [List.mem_singleton] at ho; subst ho; rfl
      · intro u
        rw [List.count_append, h3]
        by_cases h : u = v
        · subst h
          have e0 : ins.count u = 0 := by omega
          simp [e0, h1v]
        · have hne : (Op.tfree v == Op.tfree u) = false := by
            rw [beq_eq_false_iff_ne]; intro e; cases e; exact h rfl
          rw [Function.update_of_ne h, List.count_cons_of_ne (fun e => h e.symm), List.count_cons, hne]
          simp
    · rw [if_neg h1v] at h1
      refine ⟨F, by rw [if_neg h1v, h1], h2, ?_⟩
      intro u
      rw [h3]
      by_cases h : u = v
      · subst h
        rw [Function.update_self, List.count_cons_self]
        by_cases e : 0 < ins.count u ∧ c u - 1 = ins.count u
        · rw [if_pos e, if_pos (by omega)]
        · rw [if_neg e, if_neg (by omega)]
      · rw [Function.update_of_ne h, List.count_cons_of_ne (fun e => h e.symm)]

/-- The solver on ops in execution order. -/
def flatFree : List Op → (Nat → Nat) → (Nat → Nat) × List Op
  | [], c => (c, [])
  | .linalg o ins outs :: rest, c =>
    ((flatFree rest (freeIns c ins).1).1, .linalg o ins outs :: (freeIns c ins).2 ++ (flatFree rest (freeIns c ins).1).2)
  | o :: rest, c => ((flatFree rest c).1, o :: (flatFree rest c).2)

/-- Only linalg ops and comments. -/
def Op.plain : Op → Bool
  | .linalg .. | .dbg => true
  | _ => false

theorem flatFree_append (a b : List Op) (c : Nat → Nat) : flatFree (a ++ b) c =
    ((flatFree b (flatFree a c).1).1, (flatFree a c).2 ++ (flatFree b (flatFree a c).1).2) := by
  induction a generalizing c with
  | nil => simp [flatFree]
  | cons o a ih =>
    cases o <;> simp [flatFree, ih]

/-- What the solver does to ops in execution order. -/
structure Freed (ops L : List Op) : Prop where
  /-- the ops are unchanged -/
  same : L.filter (fun o => !o.isFree) = ops
  /-- what is read is freed exactly once, nothing else is -/
  once : ∀ u, L.count (.tfree u) = if 0 < uses u ops then 1 else 0
  /-- directly after the last op that reads it (only other frees in between) -/
  last : ∀ u a b, L = a ++ .tfree u :: b → uses u b = 0 ∧
    ∃ a' o ins outs fs, a = a' ++ .linalg o ins outs :: fs ∧ u ∈ ins ∧ ∀ f ∈ fs, f.isFree = true

theorem uses_filter (u : Nat) (L : List Op) : uses u (L.filter fun o => !o.isFree) = uses u L := by
  induction L with
  | nil => rfl
  | cons o L ih =>
    by_cases h : o.isFree = true
    · rw [List.filter_cons_of_neg (by simp [h]), ih, uses_cons]
      cases o <;> first | (simp [Op.reads]; done) | cases h
    · rw [List.filter_cons_of_pos (by simp [h]), uses_cons, uses_cons, ih]

theorem filter_frees {F : List Op} (h : ∀ o ∈ F, o.isFree = true) : F.filter (fun o => !o.isFree) = [] := by
  rw [List.filter_eq_nil_iff]; intro o ho; simp [h o ho]

theorem flatFree_freed (ops : List Op) (hp : ∀ o ∈ ops, o.plain = true) :
    ∀ c : Nat → Nat, (∀ u, c u = uses u ops) → Freed ops (flatFree ops c).2 := by
  induction ops with
  | nil =>
    intro c _
    refine ⟨rfl, by simp [flatFree, uses_nil], ?_⟩
    intro u a b h
    simp [flatFree] at h
  | cons o ops ih =>
    intro c hc
    have hp' : ∀ o ∈ ops, o.plain = true := fun o ho => hp o (by simp [ho])
    cases o with
    | linalg o ins outs =>
      have hc' : ∀ u, ins.count u ≤ c u := by intro u; rw [hc, uses_cons]; simp [Op.reads]
      obtain ⟨F, h1, h2, h3⟩ := freeIns_snd ins c [] hc'
      rw [← freeIns_eq, List.append_nil] at h1
      have hc2 : ∀ u, (freeIns c ins).1 u = uses u ops := by
        intro u; rw [freeIns_eq, freeIns_fst, hc, uses_cons]; simp [Op.reads]
      obtain ⟨s1, s2, s3⟩ := ih hp' _ hc2
      have hF : (flatFree (.linalg o ins outs :: ops) c).2 = .linalg o ins outs :: F ++ (flatFree ops (freeIns c ins).1).2 := by
        rw [flatFree, h1]
      rw [hF]
      set R := (flatFree ops (freeIns c ins).1).2 with hR
      have huR : ∀ u, uses u R = uses u ops := by
        intro u; rw [← uses_filter, s1]
      have huF : ∀ u, uses u F = 0 := by
        intro u; rw [← uses_filter, filter_frees h2]; rfl
      refine ⟨?_, ?_, ?_⟩
      · rw [List.filter_append, List.filter_cons, s1, filter_frees h2]; simp [Op.isFree]
      · intro u
        rw [List.count_append, List.count_cons, h3, s2, uses_cons, hc, uses_cons]
        simp only [Op.reads]
        have : (Op.linalg o ins outs == Op.tfree u) = false := by
          rw [beq_eq_false_iff_ne]; intro e; cases e
        simp only [this, Bool.false_eq_true, if_false]
        have key : ∀ n k : Nat, (if 0 < n ∧ n + k = n then 1 else 0) + 0 + (if 0 < k then 1 else 0) =
            if 0 < n + k then 1 else 0 := by
          intro n k
          rcases n with _ | n <;> rcases k with _ | k <;> simp
        exact key (ins.count u) (uses u ops)
      · intro u a b hab
        cases a with
        | nil => simp at hab
        | cons x a =>
          rw [List.cons_append, List.cons_append] at hab
          obtain ⟨h0, hab'⟩ := List.cons.inj hab
          subst h0
          rcases List.append_eq_append_iff.1 hab' with ⟨a1, rfl, h5⟩ | ⟨b1, hF1, h5⟩
          · -- in the rest
            obtain ⟨h6, a', o', i', u', fs, rfl, h7, h8⟩ := s3 u a1 b h5
            exact ⟨h6, .linalg o ins outs :: (F ++ a'), o', i', u', fs, by simp, h7, h8⟩
          · -- in F
            cases b1 with
            | nil =>
              rw [List.append_nil] at hF1
              simp only [List.nil_append] at h5
              obtain ⟨_, a', o', i', u', fs, h6, _, _⟩ := s3 u [] b (by rw [List.nil_append]; exact h5.symm)
              exact absurd h6 (by simp)
            | cons y b1 =>
              rw [List.cons_append] at h5
              obtain ⟨rfl, rfl⟩ := List.cons.inj h5
              have hcnt : 0 < F.count (Op.tfree u) := List.count_pos_iff.2 (by rw [hF1]; simp)
              rw [h3] at hcnt
              split_ifs at hcnt with hif
              · refine ⟨?_, [], o, ins, outs, a, rfl, List.count_pos_iff.1 hif.1, fun f hf => h2 f (by rw [hF1]; simp [hf])⟩
                rw [uses_append, huR]
                have h9 : uses u b1 = 0 := by
                  have := huF u
                  rw [hF1, uses_append, uses_cons] at this
                  omega
                have h10 := hc u
                rw [uses_cons, hif.2] at h10
                simp only [Op.reads] at h10
                omega
              · omega
    | dbg =>
      have hc2 : ∀ u, c u = uses u ops := by intro u; rw [hc, uses_cons]; simp [Op.reads]
      obtain ⟨s1, s2, s3⟩ := ih hp' _ hc2
      have hF : (flatFree (.dbg :: ops) c).2 = .dbg :: (flatFree ops c).2 := rfl
      rw [hF]
      refine ⟨?_, ?_, ?_⟩
      · rw [List.filter_cons, s1]; rfl
      · intro u
        rw [List.count_cons, s2, uses_cons]
        simp [Op.reads]
      · intro u a b hab
        cases a with
        | nil => simp at hab
        | cons x a =>
          rw [List.cons_append] at hab
          obtain ⟨h0, hab'⟩ := List.cons.inj hab
          subst h0
          obtain ⟨h6, a', o', i', u', fs, rfl, h7, h8⟩ := s3 u a b hab'
          exact ⟨h6, .dbg :: a', o', i', u', fs, by simp, h7, h8⟩
    | _ => exact absurd (hp _ (List.mem_cons_self ..)) (by simp [Op.plain])

/-! ### Executing a list of ops -/

def flatEval (S : Sem T W) : List Op → W × (Nat → T) → W × (Nat → T)
  | [], s => s
  | .linalg o ins outs :: rest, s =>
    flatEval S rest ((S.exec o s.1 (ins.map s.2)).1, assign s.2 outs (S.exec o s.1 (ins.map s.2)).2)
  | .tfree u :: rest, s => flatEval S rest (s.1, Function.update s.2 u S.nil)
  | _ :: rest, s => flatEval S rest s

theorem flatEval_append (a b : List Op) (s : W × (Nat → T)) :
    flatEval S (a ++ b) s = flatEval S b (flatEval S a s) := by
  induction a generalizing s with
  | nil => rfl
  | cons o a ih => cases o <;> simp [flatEval, ih]

theorem flatEval_frees {F : List Op} (h : ∀ o ∈ F, o.isFree = true) (s : W × (Nat → T)) :
    (flatEval S F s).1 = s.1 ∧ ∀ u, F.count (.tfree u) = 0 → (flatEval S F s).2 u = s.2 u := by
  induction F generalizing s with
  | nil => exact ⟨rfl, fun _ _ => rfl⟩
  | cons o F ih =>
    have ih' := fun s => ih (fun o ho => h o (by simp [ho])) s
    cases o with
    | tfree v =>
      refine ⟨(ih' (s.1, _)).1, ?_⟩
      intro u hu
      rw [List.count_cons] at hu
      have hne : ¬ (Op.tfree v == Op.tfree u) = true := by
        intro e; rw [if_pos e] at hu; omega
      have : u ≠ v := by rintro rfl; exact hne (by simp)
      rw [flatEval, (ih' _).2 u (by omega)]
      exact Function.update_of_ne this _ _
    | _ => exact absurd (h _ (List.mem_cons_self ..)) (by simp [Op.isFree])

theorem assign_congr {env env' : Nat → T} {P : Nat → Prop} (h : ∀ u, P u → env' u = env u) (us : List Nat) (ts : List T) :
    ∀ u, P u → assign env' us ts u = assign env us ts u := by
  induction us generalizing env env' ts with
  | nil => exact h
  | cons v us ih =>
    cases ts with
    | nil => exact h
    | cons t ts =>
      rw [assign_cons, assign_cons]
      refine ih (fun u hu => ?_) ts
      by_cases e : u = v
      · subst e; simp
      · rw [Function.update_of_ne e, Function.update_of_ne e, h u hu]

/-- Freeing does not change what is computed, except in storage that is read. -/
theorem flatEval_free (U : Nat → Prop) : ∀ (ops : List Op) (c : Nat → Nat) (s s' : W × (Nat → T)),
    (∀ o ∈ ops, o.plain = true) → (∀ u, c u = uses u ops) → (∀ o ∈ ops, ∀ u ∈ o.reads, U u) → s'.1 = s.1 →
    (∀ u, 0 < c u ∨ ¬ U u → s'.2 u = s.2 u) →
    (flatEval S (flatFree ops c).2 s').1 = (flatEval S ops s).1 ∧
      ∀ u, ¬ U u → (flatEval S (flatFree ops c).2 s').2 u = (flatEval S ops s).2 u
  | [], c, s, s', _, _, _, hw, he => ⟨hw, fun u hu => he u (.inr hu)⟩
  | .linalg o ins outs :: ops, c, s, s', hp, hc, hU, hw, he => by
    have hc' : ∀ u, ins.count u ≤ c u := by intro u; rw [hc, uses_cons]; simp [Op.reads]
    obtain ⟨F, h1, h2, h3⟩ := freeIns_snd ins c [] hc'
    rw [← freeIns_eq, List.append_nil] at h1
    have hc2 : ∀ u, (freeIns c ins).1 u = uses u ops := by
      intro u; rw [freeIns_eq, freeIns_fst, hc, uses_cons]; simp [Op.reads]
    have hxs : ins.map s'.2 = ins.map s.2 :=
      List.map_congr_left fun v hv => he v (.inl (by
        have := hc' v
        have := List.count_pos_iff.2 hv
        omega))
    have e0 : flatEval S (flatFree (.linalg o ins outs :: ops) c).2 s' =
        flatEval S (flatFree ops (freeIns c ins).1).2 (flatEval S F
          ((S.exec o s.1 (ins.map s.2)).1, assign s'.2 outs (S.exec o s.1 (ins.map s.2)).2)) := by
      rw [flatFree, h1, List.cons_append, flatEval, flatEval_append, hxs, hw]
    rw [e0]
    show _ = (flatEval S ops _).1 ∧ _
    obtain ⟨f1, f2⟩ := flatEval_frees (S := S) h2
      ((S.exec o s.1 (ins.map s.2)).1, assign s'.2 outs (S.exec o s.1 (ins.map s.2)).2)
    refine flatEval_free U ops _ ((S.exec o s.1 (ins.map s.2)).1, assign s.2 outs (S.exec o s.1 (ins.map s.2)).2) _
      (fun o ho => hp o (by simp [ho])) hc2 (fun o ho => hU o (by simp [ho])) f1 ?_
    intro u hu
    have hins : ∀ v ∈ ins, U v := hU _ (List.mem_cons_self ..)
    rw [f2 u]
    · refine assign_congr (P := fun u => 0 < c u ∨ ¬ U u) he outs _ u ?_
      rcases hu with hu | hu
      · left
        rw [freeIns_eq, freeIns_fst] at hu
        omega
      · exact .inr hu
    · rw [h3, if_neg]
      rintro ⟨hpos, heq⟩
      rcases hu with hu | hu
      · rw [freeIns_eq, freeIns_fst] at hu
        omega
      · exact hu (hins u (List.count_pos_iff.1 hpos))
  | .dbg :: ops, c, s, s', hp, hc, hU, hw, he => by
    show (flatEval S (.dbg :: (flatFree ops c).2) s').1 = _ ∧ _
    exact flatEval_free U ops c s s' (fun o ho => hp o (by simp [ho]))
      (fun u => by rw [hc, uses_cons]; simp [Op.reads]) (fun o ho => hU o (by simp [ho])) hw he
  | .call .. :: _, _, _, _, hp, _, _, _, _ => absurd (hp _ (List.mem_cons_self ..)) (by simp [Op.plain])
  | .tfree _ :: _, _, _, _, hp, _, _, _, _ => absurd (hp _ (List.mem_cons_self ..)) (by simp [Op.plain])
  | .cfret :: _, _, _, _, hp, _, _, _, _ => absurd (hp _ (List.mem_cons_self ..)) (by simp [Op.plain])
  | .register _ :: _, _, _, _, hp, _, _, _, _ => absurd (hp _ (List.mem_cons_self ..)) (by simp [Op.plain])
  | .launch .. :: _, _, _, _, hp, _, _, _, _ => absurd (hp _ (List.mem_cons_self ..)) (by simp [Op.plain])
  | .jump _ :: _, _, _, _, hp, _, _, _, _ => absurd (hp _ (List.mem_cons_self ..)) (by simp [Op.plain])
  | .pfree _ :: _, _, _, _, hp, _, _, _, _ => absurd (hp _ (List.mem_cons_self ..)) (by simp [Op.plain])
  | .pret :: _, _, _, _, hp, _, _, _, _ => absurd (hp _ (List.mem_cons_self ..)) (by simp [Op.plain])
  | .label _ :: _, _, _, _, hp, _, _, _, _ => absurd (hp _ (List.mem_cons_self ..)) (by simp [Op.plain])
  | .bind .. :: _, _, _, _, hp, _, _, _, _ => absurd (hp _ (List.mem_cons_self ..)) (by simp [Op.plain])
  | .exit :: _, _, _, _, hp, _, _, _, _ => absurd (hp _ (List.mem_cons_self ..)) (by simp [Op.plain])
  | .mode :: _, _, _, _, hp, _, _, _, _ => absurd (hp _ (List.mem_cons_self ..)) (by simp [Op.plain])

end Verif.Compile
