import Verif.Shard.PropsLoad
/-!
C139, continued: what `load_weights` accepts without a word, and non-vacuity examples.
-/
namespace Verif.Shard
open Verif.Tensor
variable {α : Type}

/-- The tensor is meant for parameter `n`. -/
def goesTo (tie : Bool) (has : Name → Bool) (n : Name) (e : Name × Tn α) : Bool :=
  match route tie has e.1 with
  | some (pn, _) => decide (pn = n)
  | none => false

theorem drop_routed [NatCast α] (tie : Bool) (has : Name → Bool) (n : Name) :
    ∀ (loads : List (Name × Tn α)) (s1 s2 s1' : Store α),
      (∀ m, (s1 m).isSome = has m) → (∀ m, (s2 m).isSome = has m) → (∀ m, m ≠ n → s1 m = s2 m) →
      loadWeights tie s1 loads = some s1' →
      ∃ s2', loadWeights tie s2 (loads.filter (fun e => !goesTo tie has n e)) = some s2' ∧ s2' n = s2 n ∧
        ∀ m, m ≠ n → s2' m = s1' m
  | [], s1, s2, s1', _, _, heq, h => by
    cases h
    exact ⟨s2, rfl, rfl, fun m hm => (heq m hm).symm⟩
  | (name, w) :: rest, s1, s2, s1', h1, h2, heq, h => by
    have f1 : (fun m => (s1 m).isSome) = has := funext h1
    have f2 : (fun m => (s2 m).isSome) = has := funext h2
    unfold loadWeights at h
    cases hl : loadOne tie s1 name w with
    | none => rw [hl] at h; cases h
    | some t1 =>
      rw [hl] at h
      simp only at h
      unfold loadOne at hl
      rw [f1] at hl
      cases hr : route tie has name with
      | none =>
        rw [hr] at hl
        cases hl
        have hg : goesTo tie has n (name, w) = false := by unfold goesTo; rw [hr]
        obtain ⟨s2', g1, g2, g3⟩ := drop_routed tie has n rest s1 s2 s1' h1 h2 heq h
        refine ⟨s2', ?_, g2, g3⟩
        rw [List.filter_cons, hg]
        simp only [Bool.not_false, if_true]
        unfold loadWeights loadOne
        rw [f2, hr]
        exact g1
      | some e =>
        obtain ⟨pn, sid⟩ := e
        rw [hr] at hl
        simp only at hl
        have hstep : ∀ p t, s1 pn = some p → t1 = (fun m => if m = pn then some ⟨t, p.loader⟩ else s1 m) →
            ∀ m, (t1 m).isSome = has m := by
          intro p t hp ht m
          rw [ht]
          dsimp only
          by_cases hm : m = pn
          · subst hm; rw [if_pos rfl, ← h1, hp]; rfl
          · rw [if_neg hm]; exact h1 m
        by_cases hn : pn = n
        · have hg : goesTo tie has n (name, w) = true := by unfold goesTo; rw [hr]; simp [hn]
          have h1' : ∀ m, (t1 m).isSome = has m := by
            cases hp : s1 pn with
            | none => rw [hp] at hl; cases hl; exact h1
            | some p =>
              rw [hp] at hl
              simp only at hl
              cases hq : p.load w sid with
              | none => rw [hq] at hl; cases hl
              | some t => rw [hq] at hl; cases hl; exact hstep p t hp rfl
          have heq' : ∀ m, m ≠ n → t1 m = s2 m := by
            intro m hm
            rw [← heq m hm]
            cases hp : s1 pn with
            | none => rw [hp] at hl; cases hl; rfl
            | some p =>
              rw [hp] at hl
              simp only at hl
              cases hq : p.load w sid with
              | none => rw [hq] at hl; cases hl
              | some t => rw [hq] at hl; cases hl; exact if_neg (by rw [hn]; exact hm)
          obtain ⟨s2', g1, g2, g3⟩ := drop_routed tie has n rest t1 s2 s1' h1' h2 heq' h
          refine ⟨s2', ?_, g2, g3⟩
          rw [List.filter_cons, hg]
          exact g1
        · have hg : goesTo tie has n (name, w) = false := by unfold goesTo; rw [hr]; simp [hn]
          have hsame := heq pn hn
          cases hp : s1 pn with
          | none =>
            rw [hp] at hl
            cases hl
            obtain ⟨s2', g1, g2, g3⟩ := drop_routed tie has n rest s1 s2 s1' h1 h2 heq h
            refine ⟨s2', ?_, g2, g3⟩
            rw [List.filter_cons, hg]
            simp only [Bool.not_false, if_true]
            unfold loadWeights loadOne
            rw [f2, hr]
            simp only [← hsame, hp]
            exact g1
          | some p =>
            rw [hp] at hl
            simp only at hl
            cases hq : p.load w sid with
            | none => rw [hq] at hl; cases hl
            | some t =>
              rw [hq] at hl
              cases hl
              obtain ⟨s2', g1, g2, g3⟩ := drop_routed tie has n rest _
                (fun m => if m = pn then some ⟨t, p.loader⟩ else s2 m) s1' (hstep p t hp rfl)
                (by
                  intro m
                  by_cases hm : m = pn
                  · subst hm; rw [if_pos rfl, ← h2, ← hsame, hp]; rfl
                  · rw [if_neg hm]; exact h2 m)
                (by
                  intro m hm
                  by_cases hm' : m = pn
                  · rw [if_pos hm', if_pos hm']
                  · rw [if_neg hm', if_neg hm']; exact heq m hm)
                h
              refine ⟨s2', ?_, ?_, g3⟩
              · rw [List.filter_cons, hg]
                simp only [Bool.not_false, if_true]
                unfold loadWeights loadOne
                rw [f2, hr]
                simp only [← hsame, hp, hq]
                exact g1
              · rw [g2]; exact if_neg (fun h => hn h.symm)

/-- **C139, violated part 1**: a missing tensor goes unnoticed.  Take any checkpoint that loads, and any
parameter; delete every tensor meant for that parameter.  Loading still succeeds, everything else is as before,
and the parameter keeps the uninitialised contents it was created with. -/
theorem C139_missing_violated [NatCast α] (tie : Bool) (st st' : Store α) (loads : List (Name × Tn α)) (n : Name)
    (h : loadWeights tie st loads = some st') :
    ∃ st'', loadWeights tie st (loads.filter (fun e => !goesTo tie (fun m => (st m).isSome) n e)) = some st'' ∧
      st'' n = st n ∧ ∀ m, m ≠ n → st'' m = st' m :=
  drop_routed tie _ n loads st st st' (fun _ => rfl) (fun _ => rfl) (fun _ _ => rfl) h

/-- **C139, violated part 2**: a name the loader does not recognise is dropped without a word.  The untied output
head stored as `language_model.lm_head.weight` (the convention the loader itself accepts for every other tensor)
is one: the head keeps its uninitialised contents. -/
theorem C139_head_violated [NatCast α] {c : QCfg} {st : Store α} (hfresh : Fresh c st) (w : Tn α) :
    loadWeights c.tie st [("language_model.lm_head.weight".toList, w)] = some st := by
  have hno : (st "model.lm_head.weight".toList).isSome = false := by
    cases h : (st "model.lm_head.weight".toList).isSome with
    | false => rfl
    | true =>
      obtain ⟨k, _, hk⟩ := hfresh.2 _ h
      exfalso
      cases k with
      | embed => revert hk; decide
      | norm => revert hk; decide
      | head => revert hk; decide
      | layer i x =>
        have h7 : ∀ t : Name, ("model.layers.".toList ++ t)[7]? = some 'a' := fun _ => rfl
        have e : ("model.lm_head.weight".toList)[7]? = some 'm' := rfl
        have h8 := h7 (Nat.toDigits 10 i ++ '.' :: x.path)
        have hk' : "model.layers.".toList ++ (Nat.toDigits 10 i ++ '.' :: x.path) = "model.lm_head.weight".toList := hk
        rw [hk', e] at h8
        exact absurd (Option.some.inj h8) (by decide)
  have hr : route c.tie (fun n => (st n).isSome) "language_model.lm_head.weight".toList = none := by
    obtain ⟨has, hhas⟩ : ∃ has : Name → Bool, has = fun n => (st n).isSome := ⟨_, rfl⟩
    have hno' : has "model.lm_head.weight".toList = false := by rw [hhas]; exact hno
    rw [← hhas]
    have : ∀ tie, route tie has "language_model.lm_head.weight".toList =
        if tie = true then none else if has "model.lm_head.weight".toList = true then
          some ("model.lm_head.weight".toList, none) else none := by
      intro tie
      cases tie <;> rfl
    rw [this, hno']
    cases c.tie <;> rfl
  unfold loadWeights loadOne
  rw [hr]
  rfl

/-- **C139, violated part 3**: an embedding table (or output head) of the wrong shape is skipped with a warning;
the parameter keeps its uninitialised contents and loading succeeds. -/
theorem C139_shape_violated [NatCast α] {c : QCfg} {st : Store α} (hfresh : Fresh c st) (w : Tn α)
    (hw : w.shape ≠ [c.vocab, c.hidden]) (f : Form) :
    ∃ st', loadWeights c.tie st [(CKey.embed.name f, w)] = some st' ∧ ∀ n, st' n = st n := by
  obtain ⟨p, hp, hs, hl⟩ := hfresh.1 .embed rfl
  have hr := route_ck c.tie (fun n => (st n).isSome) f .embed (by simp only [CKey.target, hp]; rfl) (fun h => by cases h)
  have hload : p.load w none = some p.data := by
    unfold Param.load
    rw [hl]
    exact if_neg (by rw [hs]; exact fun h => hw h.symm)
  refine ⟨fun n => if n = PKey.embed.name then some ⟨p.data, p.loader⟩ else st n, ?_, fun n => ?_⟩
  · unfold loadWeights loadOne
    rw [hr]
    simp only [CKey.target, hp, hload]
    rfl
  · by_cases h : n = PKey.embed.name
    · simp only [h, hp, if_true]
    · exact if_neg h

/-- **C139, violated part 4**: a layer-norm weight with a single element is accepted in place of one with a value
per channel, and copied into every channel. -/
theorem C139_broadcast_violated [NatCast α] {c : QCfg} {st : Store α} (hfresh : Fresh c st) (w : Tn α)
    (hw : w.shape = [1]) (f : Form) :
    ∃ st' p, loadWeights c.tie st [(CKey.norm.name f, w)] = some st' ∧ st' PKey.norm.name = some p ∧
      p.data.shape = [c.hidden] ∧ ∀ i, i < c.hidden → p.data.get [i] = w.get [0] := by
  obtain ⟨p, hp, hs, hl⟩ := hfresh.1 .norm rfl
  have hr := route_ck c.tie (fun n => (st n).isSome) f .norm (by simp only [CKey.target, hp]; rfl) (fun h => by cases h)
  have hs' : p.data.shape = [c.hidden] := hs
  have hload : ∃ t, p.load w none = some t ∧ t.shape = [c.hidden] ∧ ∀ i, i < c.hidden → t.get [i] = w.get [0] := by
    unfold Param.load
    rw [hl]
    show ∃ t, copyFrom p.data w = some t ∧ _
    unfold copyFrom
    rw [hs', hw, if_pos (by simp)]
    exact ⟨_, rfl, rfl, fun i _ => rfl⟩
  obtain ⟨t, h1, h2, h3⟩ := hload
  refine ⟨fun n => if n = PKey.norm.name then some ⟨t, p.loader⟩ else st n, ⟨t, p.loader⟩, ?_, if_pos rfl, h2, h3⟩
  unfold loadWeights loadOne
  rw [hr]
  simp only [CKey.target, hp, h1]
  rfl

/-! ### Non-vacuity: a model and a checkpoint for it -/

/-- A two-layer model with biases and an untied head. -/
def demoCfg : QCfg := ⟨2, 4, 4, 2, 2, 3, 5, true, false⟩

def demoKeys : List PKey :=
  [.embed, .norm, .head] ++ (List.range 2).flatMap (fun i =>
    [LW.qkvW, .qkvB, .oW, .oB, .qn, .kn, .guW, .dW, .ln1, .ln2].map (PKey.layer i))

def demoStore : Store Int := fun n =>
  (demoKeys.find? (fun k => decide (k.name = n))).map (fun k => ⟨⟨demoCfg.shape k, fun _ => 77⟩, demoCfg.loader k⟩)

theorem demo_mem (k : PKey) : demoCfg.has k = true ↔ k ∈ demoKeys := by
  cases k with
  | embed => decide
  | norm => decide
  | head => decide
  | layer i w =>
    have : demoCfg.has (.layer i w) = decide (i < 2) := by cases w <;> simp [QCfg.has, demoCfg]
    rw [this]
    match i with
    | 0 => cases w <;> decide
    | 1 => cases w <;> decide
    | i + 2 => simp [demoKeys, List.range_succ]

theorem demo_find (k : PKey) (hk : k ∈ demoKeys) : demoKeys.find? (fun x => decide (x.name = k.name)) = some k := by
  cases h : demoKeys.find? (fun x => decide (x.name = k.name)) with
  | none =>
    have := List.find?_eq_none.1 h k hk
    simp at this
  | some x =>
    have := List.find?_some h
    simp only [decide_eq_true_eq] at this
    rw [name_inj this]

theorem demo_fresh : Fresh demoCfg demoStore := by
  constructor
  · intro k hk
    refine ⟨⟨⟨demoCfg.shape k, fun _ => 77⟩, demoCfg.loader k⟩, ?_, rfl, rfl⟩
    unfold demoStore
    rw [demo_find k ((demo_mem k).1 hk)]
    rfl
  · intro n hn
    unfold demoStore at hn
    cases h : demoKeys.find? (fun x => decide (x.name = n)) with
    | none => rw [h] at hn; cases hn
    | some x =>
      have h1 := List.find?_some h
      simp only [decide_eq_true_eq] at h1
      exact ⟨x, (demo_mem x).2 (List.mem_of_find?_eq_some h), h1⟩

/-- The stored tensors, numbered. -/
def demoCk (k : CKey) : Tn Int := ⟨demoCfg.cshape k, fun ix => (ix.sum : Int)⟩

def demoCKeys : List CKey :=
  [.embed, .norm, .head] ++ (List.range 2).flatMap (fun i =>
    [LC.qW, .kW, .vW, .qB, .kB, .vB, .oW, .oB, .qn, .kn, .gW, .uW, .dW, .ln1, .ln2].map (CKey.layer i))

theorem demo_cmem (k : CKey) : demoCfg.stores k = true ↔ k ∈ demoCKeys := by
  cases k with
  | embed => decide
  | norm => decide
  | head => decide
  | layer i w =>
    have : demoCfg.stores (.layer i w) = decide (i < 2) := by cases w <;> simp [QCfg.stores, demoCfg]
    rw [this]
    match i with
    | 0 => cases w <;> decide
    | 1 => cases w <;> decide
    | i + 2 => simp [demoCKeys, List.range_succ]

/-- The file: the second half of the tensors first, with the `language_model.` prefix; and a rotary table that is
skipped. -/
def demoLoads : List (Name × Tn Int) :=
  ("model.layers.0.self_attn.rotary_emb.inv_freq".toList, ⟨[1], fun _ => 0⟩) ::
    demoCKeys.reverse.map (fun k => (k.name .lm, demoCk k))

theorem demo_ck : Checkpoint demoCfg (fun n => (demoStore n).isSome) demoCk demoLoads := by
  constructor
  · intro e he
    rcases List.mem_cons.1 he with rfl | he
    · right
      unfold route
      exact if_pos (by decide)
    · obtain ⟨k, hk, rfl⟩ := List.mem_map.1 he
      exact Or.inl ⟨.lm, k, (demo_cmem k).2 (List.mem_reverse.1 hk), rfl⟩
  · intro k hk
    exact ⟨.lm, List.mem_cons_of_mem _ (List.mem_map.2 ⟨k, List.mem_reverse.2 ((demo_cmem k).1 hk), rfl⟩)⟩

example : ∃ st', loadWeights demoCfg.tie demoStore demoLoads = some st' ∧
    ∀ k, demoCfg.has k = true → ∃ p, st' k.name = some p ∧ p.data.shape = demoCfg.shape k ∧ Correct demoCk k p.data :=
  C139_load_partial demo_fresh (by decide) (fun _ _ => rfl) demo_ck

example : ∃ st'', loadWeights demoCfg.tie demoStore (demoLoads.filter
      (fun e => !goesTo demoCfg.tie (fun m => (demoStore m).isSome) PKey.norm.name e)) = some st'' ∧
    st'' PKey.norm.name = some ⟨⟨[4], fun _ => 77⟩, .base⟩ := by
  obtain ⟨st', h, _⟩ := C139_load_partial demo_fresh (by decide) (fun _ _ => rfl) demo_ck
  obtain ⟨s, h1, h2, _⟩ := C139_missing_violated _ _ _ _ PKey.norm.name h
  exact ⟨s, h1, by rw [h2]; unfold demoStore; rw [demo_find _ (by decide)]; rfl⟩

end Verif.Shard
