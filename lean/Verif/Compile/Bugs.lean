import Verif.Compile.Props
/- Cases that meet the hypotheses of the theorems, and cases in which C32, C46, C47 and C48 fail. -/
namespace Verif.Compile

/-- Kernel `o` returns one number; the world counts the launches. -/
def exSem : Sem Nat Nat where
  nil := 0
  exec o w xs := (w + 1, [10 * o + xs.sum])

def exAbs : Nat → Name
  | 0 => "m".toList
  | 1 => "m.a".toList
  | n => ("m.b".toList ++ (Nat.repr n).toList)

/-- Tensor 0 is the input, 9 a constant; 1 := k1 0 9; submodule 1 { 2 := k2 1 }; 3 := k3 2. -/
def exBody : Steps := .op 1 [0, 9] [1] (.sub 1 [1] [2] (.op 2 [1] [2] (.note .done)) (.op 3 [2] [3] .done))

def exP : List (Nat × Instr) := (compile true (traceModule id exAbs [9] 0 [0] [3] exBody)).getD []

theorem exP_eq : compile true (traceModule id exAbs [9] 0 [0] [3] exBody) = some exP := by decide +kernel

theorem exArity : exBody.arity exSem := by
  refine ⟨fun _ _ _ => rfl, ⟨fun _ _ _ => rfl, trivial⟩, ⟨fun _ _ _ => rfl, trivial⟩⟩

theorem exDefined : exBody.defined ([9] ++ [0]) = some [9, 0, 1, 2, 3] := by decide

example : ∃ mc', Runs exSem exP [5] (loaded exSem 0 [(9, 7)]) mc' ∧ mc'.world = 3 ∧ mc'.outs = [72] := by
  have h := C46_without_views_partial (S := exSem) (st := id) Function.injective_id exP_eq (by decide +kernel) exArity
    [(9, 7)] exDefined (by decide) 0 (inputs := [5]) rfl
  exact h

/-- C33 on the program of the example. -/
example : ∃ code pre post l p, index code = some p ∧ p.length < 2 ^ 31 ∧ code = pre ++ Op.jump l :: post :=
  ⟨[.mode, .jump "m.__entry".toList, .exit, .label "m.__entry".toList, .pret], [.mode],
    [.exit, .label "m.__entry".toList, .pret], _, _, rfl, by decide, rfl⟩

/-- C47 on the example. -/
example : ((0 :: exBody.mods).map exAbs).Nodup ∧ ∀ a ∈ 0 :: exBody.mods, reserved (exAbs a) = false := by
  decide +kernel

/-- C48: three runs of the example. -/
example : ∃ mc', Session exSem exP (loaded exSem 0 [(9, 7)]) [[5], [1], [5]] [[72], [68], [72]] mc' := by
  have hf : ∃ l, exBody.fresh id (writes id (fun _ => none) ([((9 : Nat), (7 : Nat))].map Prod.fst ++ [0])) = some l ∧
      ∀ v ∈ [3], l (id v) = some v :=
    fresh_of_defined Function.injective_id exBody (d := [9] ++ [0]) (d' := [9, 0, 1, 2, 3]) (by decide) exDefined |>.imp
      fun _ h => ⟨h.1, fun v hv => h.2 v (by simp at hv; simp [hv])⟩
  obtain ⟨l, h1, h2⟩ := hf
  obtain ⟨mc', h, _⟩ := C48_runs_of_a_loaded_program_partial (S := exSem) exP_eq (by decide +kernel) exArity
    [(9, 7)] h1 h2 (by decide) 0 [[5], [1], [5]] (by simp)
  exact ⟨mc', h⟩

/-- C32 on the example: the frees are where they belong. -/
example : (solve 3 (traceModule id exAbs [9] 0 [0] [3] exBody)).bind (order 3) =
    some [.linalg 1 [0, 9] [1], .tfree 9, .tfree 0, .linalg 2 [1] [2], .tfree 1, .dbg, .linalg 3 [2] [3], .tfree 2] := by
  decide +kernel

example : (∀ v ∈ [3], ∀ v' ∈ exBody.used, id v ≠ id v') ∧ exBody.depth ≤ 3 := by decide

/-! ### C46 fails with views -/

/-- Tensors 0 and 1 share a storage: 1 is a view of 0. -/
def viewSt : Nat → Nat
  | 1 => 0
  | n => n

/-- 1 := view 0; 2 := k2 0. -/
def viewBody : Steps := .op 1 [0] [1] (.op 2 [0] [2] .done)

def viewP : List (Nat × Instr) := (compile true (traceModule viewSt exAbs [] 0 [0] [2] viewBody)).getD []

theorem viewP_eq : compile true (traceModule viewSt exAbs [] 0 [0] [2] viewBody) = some viewP := by decide +kernel

/-- A module that uses a tensor after making a view of it: the compiled program passes the view instead. -/
theorem C46_stale_view_violated :
    ∃ (st : Nat → Nat) (body : Steps) (S : Sem Nat Nat) (p : List (Nat × Instr)) (mc' : Machine Nat Nat),
      compile true (traceModule st exAbs [] 0 [0] [2] body) = some p ∧ p.length < 2 ^ 31 ∧ body.arity S ∧
      body.defined [0] = some [0, 1, 2] ∧ Runs S p [5] (loaded S 0 []) mc' ∧
      mc'.outs ≠ [2].map (eager S [] [0] body 0 [5]).2 := by
  refine ⟨viewSt, viewBody, exSem, viewP, steps exSem viewP [5] 12 (start (loaded exSem 0 [])), viewP_eq, by decide +kernel,
    ⟨fun _ _ _ => rfl, fun _ _ _ => rfl, trivial⟩, by decide, ⟨12, rfl, ?_, ?_⟩, ?_⟩
  · decide +kernel
  · decide +kernel
  · decide +kernel

/-! ### C47 fails from the third call -/

/-- Submodule 1 called three times. -/
def thriceBody : Steps :=
  .sub 1 [0] [1] (.op 1 [0] [1] .done) (.sub 1 [1] [2] (.op 1 [1] [2] .done) (.sub 1 [2] [3] (.op 1 [2] [3] .done) .done))

/-- The second call renames the module to `m.a_1`, so the third call gets the name `m.a_1` too. -/
theorem C47_third_call_violated :
    ∃ body : Steps, body.defined [0] = some [0, 1, 2, 3] ∧ (∀ a ∈ body.mods, a = 1) ∧
      ((graphsOf id exAbs 0 body).map Prod.fst) =
        ["m".toList, "m.a".toList, "m.a_1".toList, "m.a_1".toList] ∧
      compile true (traceModule id exAbs [] 0 [0] [3] body) = none :=
  ⟨thriceBody, by decide, by decide, by decide +kernel, by decide +kernel⟩

/-! ### C32 fails for results that are read -/

/-- 1 := k1 0; 2 := k2 1; the results are 1 and 2. -/
def bothBody : Steps := .op 1 [0] [1] (.op 2 [1] [2] .done)

def solvedP (st : Nat → Nat) (regs ins outs : List Nat) (body : Steps) : List (Nat × Instr) :=
  ((solve 3 (traceModule st exAbs regs 0 ins outs body)).bind (compile true)).getD []

/-- A result that another op reads is freed before it is bound to the outputs: the program returns an empty
tensor. -/
theorem C32_returned_tensor_freed_violated :
    ∃ (body : Steps) (S : Sem Nat Nat) (p : List (Nat × Instr)) (mc' : Machine Nat Nat),
      (solve 3 (traceModule id exAbs [] 0 [0] [1, 2] body)).bind (compile true) = some p ∧ body.arity S ∧
      body.defined [0] = some [0, 1, 2] ∧ Runs S p [5] (loaded S 0 []) mc' ∧
      mc'.outs = [S.nil, (eager S [] [0] body 0 [5]).2 2] ∧ (eager S [] [0] body 0 [5]).2 1 ≠ S.nil := by
  refine ⟨bothBody, exSem, solvedP id [] [0] [1, 2] bothBody,
    steps exSem (solvedP id [] [0] [1, 2] bothBody) [5] 20 (start (loaded exSem 0 [])), by decide +kernel,
    ⟨fun _ _ _ => rfl, fun _ _ _ => rfl, trivial⟩, by decide, ⟨20, rfl, ?_, ?_⟩, ?_, ?_⟩
  · decide +kernel
  · decide +kernel
  · decide +kernel
  · decide +kernel

/-- A module that returns a view of a tensor: the view is freed with the tensor. -/
theorem C32_returned_view_freed_violated :
    ∃ (st : Nat → Nat) (body : Steps) (S : Sem Nat Nat) (p : List (Nat × Instr)) (mc' : Machine Nat Nat),
      (solve 3 (traceModule st exAbs [] 0 [0] [1] body)).bind (compile true) = some p ∧ body.arity S ∧
      body.used = [0] ∧ body.defined [0] = some [0, 1] ∧ Runs S p [5] (loaded S 0 []) mc' ∧
      mc'.outs = [S.nil] ∧ (eager S [] [0] body 0 [5]).2 1 ≠ S.nil := by
  refine ⟨viewSt, .op 1 [0] [1] .done, exSem, solvedP viewSt [] [0] [1] (.op 1 [0] [1] .done),
    steps exSem (solvedP viewSt [] [0] [1] (.op 1 [0] [1] .done)) [5] 20 (start (loaded exSem 0 [])), by decide +kernel,
    ⟨fun _ _ _ => rfl, trivial⟩, rfl, by decide, ⟨20, rfl, ?_, ?_⟩, ?_, ?_⟩
  · decide +kernel
  · decide +kernel
  · decide +kernel
  · decide +kernel

/-! ### C48 fails with the solver -/

/-- 1 := k1 0 9 with the constant 9. -/
def constBody : Steps := .op 1 [0, 9] [1] .done

/-- The solver frees constants as well, so the second run reads an empty tensor. -/
theorem C48_constants_freed_violated :
    ∃ (body : Steps) (S : Sem Nat Nat) (p : List (Nat × Instr)) (mc1 mc2 : Machine Nat Nat),
      (solve 3 (traceModule id exAbs [9] 0 [0] [1] body)).bind (compile true) = some p ∧ body.arity S ∧
      (∀ q ∈ [9], ∀ v ∈ [0] ++ body.results, v ≠ q) ∧
      Runs S p [5] (loaded S 0 [(9, 7)]) mc1 ∧ Runs S p [5] mc1 mc2 ∧
      mc1.outs = [1].map (eager S [(9, 7)] [0] body 0 [5]).2 ∧
      mc2.outs ≠ [1].map (eager S [(9, 7)] [0] body mc1.world [5]).2 := by
  refine ⟨constBody, exSem, solvedP id [9] [0] [1] constBody,
    steps exSem (solvedP id [9] [0] [1] constBody) [5] 20 (start (loaded exSem 0 [(9, 7)])),
    steps exSem (solvedP id [9] [0] [1] constBody) [5] 20 (start
      (steps exSem (solvedP id [9] [0] [1] constBody) [5] 20 (start (loaded exSem 0 [(9, 7)])))), by decide +kernel,
    ⟨fun _ _ _ => rfl, trivial⟩, by decide, ⟨20, rfl, ?_, ?_⟩, ⟨20, rfl, ?_, ?_⟩, ?_, ?_⟩
  · decide +kernel
  · decide +kernel
  · decide +kernel
  · decide +kernel
  · decide +kernel
  · decide +kernel

end Verif.Compile
