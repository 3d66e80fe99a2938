import Verif.Shard.LoadNames
import Verif.Shard.PropsMerged
/-!
C139: loading a checkpoint by name.
-/
namespace Verif.Shard
open Verif.Tensor
variable {α : Type}

/-! ### Specification: the tensors of a Hugging Face Qwen3 checkpoint -/

/-- The tensors of one layer of the checkpoint. -/
inductive LC where
  | qW | kW | vW | qB | kB | vB | oW | oB | qn | kn | gW | uW | dW | ln1 | ln2
  deriving DecidableEq, Repr

inductive CKey where
  | embed | norm | head
  | layer (i : Nat) (w : LC)
  deriving DecidableEq, Repr

def LC.path : LC → Name
  | .qW => "self_attn.q_proj.weight".toList
  | .kW => "self_attn.k_proj.weight".toList
  | .vW => "self_attn.v_proj.weight".toList
  | .qB => "self_attn.q_proj.bias".toList
  | .kB => "self_attn.k_proj.bias".toList
  | .vB => "self_attn.v_proj.bias".toList
  | .oW => "self_attn.o_proj.weight".toList
  | .oB => "self_attn.o_proj.bias".toList
  | .qn => "self_attn.q_norm.weight".toList
  | .kn => "self_attn.k_norm.weight".toList
  | .gW => "mlp.gate_proj.weight".toList
  | .uW => "mlp.up_proj.weight".toList
  | .dW => "mlp.down_proj.weight".toList
  | .ln1 => "input_layernorm.weight".toList
  | .ln2 => "post_attention_layernorm.weight".toList

/-- The ways a checkpoint may prefix its names. -/
inductive Form where
  | full | short | lm | modelLm
  deriving DecidableEq, Repr

def Form.pre : Form → Name
  | .full => "model.".toList
  | .short => []
  | .lm => "language_model.".toList
  | .modelLm => "model.language_model.".toList

/-- The name under which a tensor is stored. -/
def CKey.name (f : Form) : CKey → Name
  | .embed => f.pre ++ "embed_tokens.weight".toList
  | .norm => f.pre ++ "norm.weight".toList
  | .head => "lm_head.weight".toList
  | .layer i w => (f.pre ++ "layers.".toList) ++ (Nat.toDigits 10 i ++ '.' :: w.path)

/-- Which tensors a checkpoint for this configuration holds. -/
def QCfg.stores (c : QCfg) : CKey → Bool
  | .embed => true
  | .norm => true
  | .head => !c.tie
  | .layer i w => decide (i < c.layers) &&
      (match w with | .qB | .kB | .vB | .oB => c.bias | _ => true)

/-- With which shapes. -/
def QCfg.cshape (c : QCfg) : CKey → List Nat
  | .embed => [c.vocab, c.hidden]
  | .norm => [c.hidden]
  | .head => [c.vocab, c.hidden]
  | .layer _ .qW => [c.qSize, c.hidden]
  | .layer _ .kW => [c.kvSize, c.hidden]
  | .layer _ .vW => [c.kvSize, c.hidden]
  | .layer _ .qB => [c.qSize]
  | .layer _ .kB => [c.kvSize]
  | .layer _ .vB => [c.kvSize]
  | .layer _ .oW => [c.hidden, c.qSize]
  | .layer _ .oB => [c.hidden]
  | .layer _ .qn => [c.headDim]
  | .layer _ .kn => [c.headDim]
  | .layer _ .gW => [c.inter, c.hidden]
  | .layer _ .uW => [c.inter, c.hidden]
  | .layer _ .dW => [c.hidden, c.inter]
  | .layer _ .ln1 => [c.hidden]
  | .layer _ .ln2 => [c.hidden]

/-- What a loaded parameter must hold. -/
def Correct (ck : CKey → Tn α) : PKey → Tn α → Prop
  | .embed, t => t.Same (ck .embed)
  | .norm, t => t.Same (ck .norm)
  | .head, t => t.Same (ck .head)
  | .layer i .qkvW, t => IsConcat 0 [ck (.layer i .qW), ck (.layer i .kW), ck (.layer i .vW)] t
  | .layer i .qkvB, t => IsConcat 0 [ck (.layer i .qB), ck (.layer i .kB), ck (.layer i .vB)] t
  | .layer i .guW, t => IsConcat 0 [ck (.layer i .gW), ck (.layer i .uW)] t
  | .layer i .oW, t => t.Same (ck (.layer i .oW))
  | .layer i .oB, t => t.Same (ck (.layer i .oB))
  | .layer i .qn, t => t.Same (ck (.layer i .qn))
  | .layer i .kn, t => t.Same (ck (.layer i .kn))
  | .layer i .dW, t => t.Same (ck (.layer i .dW))
  | .layer i .ln1, t => t.Same (ck (.layer i .ln1))
  | .layer i .ln2, t => t.Same (ck (.layer i .ln2))

/-! ### Routing -/

/-- The parameter and shard a stored tensor belongs to. -/
def LC.target : LC → LW × Option ShardId
  | .qW => (.qkvW, some (.str "q"))
  | .kW => (.qkvW, some (.str "k"))
  | .vW => (.qkvW, some (.str "v"))
  | .qB => (.qkvB, some (.str "q"))
  | .kB => (.qkvB, some (.str "k"))
  | .vB => (.qkvB, some (.str "v"))
  | .oW => (.oW, none)
  | .oB => (.oB, none)
  | .qn => (.qn, none)
  | .kn => (.kn, none)
  | .gW => (.guW, some (.idx 0))
  | .uW => (.guW, some (.idx 1))
  | .dW => (.dW, none)
  | .ln1 => (.ln1, none)
  | .ln2 => (.ln2, none)

def CKey.target : CKey → PKey × Option ShardId
  | .embed => (.embed, none)
  | .norm => (.norm, none)
  | .head => (.head, none)
  | .layer i w => (.layer i w.target.1, w.target.2)

theorem routeStacked_mid {pre ds t : Name} (hne : ds ≠ []) (hds : ∀ c ∈ ds, c.isDigit = true) (has : Name → Bool) :
    ∀ l : List (Name × Name × ShardId), (∀ e ∈ l, e.2.1 ≠ [] ∧ (∀ c ∈ e.2.1, c.isDigit = false) ∧
        contains e.2.1 pre = false ∧ repl e.2.1 e.1 0 pre = pre) →
      routeStacked has (pre ++ (ds ++ t)) l =
        (routeStacked (fun n => has (pre ++ (ds ++ n))) t l).map (fun e => (pre ++ (ds ++ e.1), e.2))
  | [], _ => rfl
  | (pn, wn, sid) :: rest, h => by
    obtain ⟨h1, h2, h3, h4⟩ := h (pn, wn, sid) List.mem_cons_self
    have ih := routeStacked_mid (t := t) hne hds has rest (fun e he => h e (List.mem_cons_of_mem _ he))
    simp only [routeStacked]
    rw [contains_mid h1 h2 pre t ds hne hds, h3, Bool.false_or, repl_mid h1 h2 pre t ds hne hds, h4, ih]
    by_cases hc : contains wn t = true
    · rw [if_pos hc, if_pos hc]
      by_cases hh : has (pre ++ (ds ++ repl wn pn 0 t)) = true
      · rw [if_pos hh, if_pos hh]; rfl
      · rw [if_neg hh, if_neg hh]
    · rw [if_neg hc, if_neg hc]

theorem routeStacked_path (has : Name → Bool) (w : LC) :
    routeStacked has ('.' :: w.path) stacked =
      (match w.target.2 with
        | none => none
        | some sid => if has ('.' :: w.target.1.path) then some ('.' :: w.target.1.path, sid) else none) := by
  have c1 : contains ".q_proj".toList ('.' :: w.path) = (w == .qW || w == .qB) := by cases w <;> decide
  have c2 : contains ".k_proj".toList ('.' :: w.path) = (w == .kW || w == .kB) := by cases w <;> decide
  have c3 : contains ".v_proj".toList ('.' :: w.path) = (w == .vW || w == .vB) := by cases w <;> decide
  have c4 : contains ".gate_proj".toList ('.' :: w.path) = (w == .gW) := by cases w <;> decide
  have c5 : contains ".up_proj".toList ('.' :: w.path) = (w == .uW) := by cases w <;> decide
  have r1 : (w == .qW || w == .qB) = true → repl ".q_proj".toList ".qkv_proj".toList 0 ('.' :: w.path) = '.' :: w.target.1.path := by
    cases w <;> decide
  have r2 : (w == .kW || w == .kB) = true → repl ".k_proj".toList ".qkv_proj".toList 0 ('.' :: w.path) = '.' :: w.target.1.path := by
    cases w <;> decide
  have r3 : (w == .vW || w == .vB) = true → repl ".v_proj".toList ".qkv_proj".toList 0 ('.' :: w.path) = '.' :: w.target.1.path := by
    cases w <;> decide
  have r4 : (w == .gW) = true → repl ".gate_proj".toList ".gate_up_proj".toList 0 ('.' :: w.path) = '.' :: w.target.1.path := by
    cases w <;> decide
  have r5 : (w == .uW) = true → repl ".up_proj".toList ".gate_up_proj".toList 0 ('.' :: w.path) = '.' :: w.target.1.path := by
    cases w <;> decide
  simp only [routeStacked, stacked, c1, c2, c3, c4, c5]
  generalize repl ".q_proj".toList ".qkv_proj".toList 0 ('.' :: w.path) = x1 at *
  generalize repl ".k_proj".toList ".qkv_proj".toList 0 ('.' :: w.path) = x2 at *
  generalize repl ".v_proj".toList ".qkv_proj".toList 0 ('.' :: w.path) = x3 at *
  generalize repl ".gate_proj".toList ".gate_up_proj".toList 0 ('.' :: w.path) = x4 at *
  generalize repl ".up_proj".toList ".gate_up_proj".toList 0 ('.' :: w.path) = x5 at *
  clear c1 c2 c3 c4 c5
  generalize hx : '.' :: w.target.1.path = y at *
  clear hx
  cases w
  case qW => rw [r1 rfl]; rfl
  case qB => rw [r1 rfl]; rfl
  case kW => rw [r2 rfl]; rfl
  case kB => rw [r2 rfl]; rfl
  case vW => rw [r3 rfl]; rfl
  case vB => rw [r3 rfl]; rfl
  case gW => rw [r4 rfl]; rfl
  case uW => rw [r5 rfl]; rfl
  all_goals rfl

theorem path_same (w : LC) (h : w.target.2 = none) : w.path = w.target.1.path := by
  cases w <;> first | (cases h; done) | rfl

theorem addModel_layer (f : Form) (x : Name) :
    addModel ((f.pre ++ "layers.".toList) ++ x) =
      (match f with | .short => "model.layers.".toList ++ x | _ => (f.pre ++ "layers.".toList) ++ x) := by
  cases f <;> rfl

theorem remap_layer (f : Form) (x : Name) :
    remap (match f with | .short => "model.layers.".toList ++ x | _ => (f.pre ++ "layers.".toList) ++ x) =
      "model.layers.".toList ++ x := by
  cases f <;> rfl

/-- Every stored tensor finds its parameter, whatever prefix the checkpoint uses. -/
theorem route_ck (tie : Bool) (has : Name → Bool) (f : Form) (k : CKey) (hh : has k.target.1.name = true)
    (ht : k = .head → tie = false) :
    route tie has (k.name f) = some (k.target.1.name, k.target.2) := by
  cases k with
  | embed =>
    have hh' : has "model.embed_tokens.weight".toList = true := hh
    have : route tie has (CKey.embed.name f) =
        if has "model.embed_tokens.weight".toList then some ("model.embed_tokens.weight".toList, none) else none := by
      cases f <;> cases tie <;> rfl
    rw [this, if_pos hh']; rfl
  | norm =>
    have hh' : has "model.norm.weight".toList = true := hh
    have : route tie has (CKey.norm.name f) =
        if has "model.norm.weight".toList then some ("model.norm.weight".toList, none) else none := by
      cases f <;> cases tie <;> rfl
    rw [this, if_pos hh']; rfl
  | head =>
    have hh' : has "lm_head.weight".toList = true := hh
    rw [ht rfl]
    have : route false has (CKey.head.name f) =
        if has "lm_head.weight".toList then some ("lm_head.weight".toList, none) else none := by
      rfl
    rw [this, if_pos hh']; rfl
  | layer i w =>
    obtain ⟨ds, hds⟩ : ∃ ds, ds = Nat.toDigits 10 i := ⟨_, rfl⟩
    have hne : ds ≠ [] := by rw [hds]; exact digits_ne i
    have hdg : ∀ c ∈ ds, c.isDigit = true := by rw [hds]; exact digits_digit i
    have hname : (CKey.layer i w).name f = (f.pre ++ "layers.".toList) ++ (ds ++ '.' :: w.path) := by rw [hds]; rfl
    have htname : (CKey.layer i w).target.1.name = "model.layers.".toList ++ (ds ++ '.' :: w.target.1.path) := by
      rw [hds]; rfl
    rw [htname] at hh ⊢
    rw [hname]
    unfold route
    have c1 : contains "rotary_emb.inv_freq".toList ((f.pre ++ "layers.".toList) ++ (ds ++ '.' :: w.path)) = false := by
      rw [contains_mid (by decide) (by decide) _ _ ds hne hdg]
      cases f <;> cases w <;> decide
    rw [if_neg (by rw [c1]; decide)]
    have c2 : contains "lm_head.weight".toList (addModel ((f.pre ++ "layers.".toList) ++ (ds ++ '.' :: w.path))) = false := by
      rw [addModel_layer]
      cases f <;> simp only <;> rw [contains_mid (by decide) (by decide) _ _ ds hne hdg] <;> cases w <;> decide
    simp only
    rw [if_neg (by rw [c2]; simp)]
    rw [addModel_layer, remap_layer]
    rw [routeStacked_mid hne hdg has stacked (by
      intro e he
      revert e
      decide), routeStacked_path]
    cases ht2 : w.target.2 with
    | none =>
      simp only [Option.map_none]
      rw [path_same w ht2, if_pos hh]
      simp [CKey.target, ht2]
    | some sid =>
      simp only
      rw [if_pos hh]
      simp [CKey.target, ht2]

/-! ### Parameters are filled independently of each other -/

/-- What the tensors routed to one parameter do to it. -/
def foldP [NatCast α] : Param α → List (Option ShardId × Tn α) → Option (Tn α)
  | p, [] => some p.data
  | p, (s, w) :: r =>
    match p.load w s with
    | none => none
    | some t => foldP ⟨t, p.loader⟩ r

/-- The tensors routed to parameter `n`. -/
def routed (tie : Bool) (has : Name → Bool) (n : Name) (loads : List (Name × Tn α)) : List (Option ShardId × Tn α) :=
  loads.filterMap (fun e => match route tie has e.1 with
    | some (pn, s) => if pn = n then some (s, e.2) else none
    | none => none)

theorem loadWeights_split [NatCast α] (tie : Bool) (has : Name → Bool) :
    ∀ (loads : List (Name × Tn α)) (st : Store α), (∀ n, (st n).isSome = has n) →
      (∀ n p, st n = some p → ∃ t, foldP p (routed tie has n loads) = some t) →
      ∃ st', loadWeights tie st loads = some st' ∧
        ∀ n p, st n = some p → ∃ t, foldP p (routed tie has n loads) = some t ∧ st' n = some ⟨t, p.loader⟩
  | [], st, _, _ => ⟨st, rfl, fun n p h => ⟨p.data, rfl, h⟩⟩
  | (name, w) :: rest, st, hhas, hf => by
    have hfun : (fun n => (st n).isSome) = has := funext hhas
    cases hr : route tie has name with
    | none =>
      have hsub : ∀ n, routed tie has n ((name, w) :: rest) = routed tie has n rest := by
        intro n; simp [routed, hr]
      obtain ⟨st', h1, h2⟩ := loadWeights_split tie has rest st hhas (fun n p h => by rw [← hsub n]; exact hf n p h)
      refine ⟨st', ?_, fun n p h => by rw [hsub n]; exact h2 n p h⟩
      unfold loadWeights loadOne
      rw [hfun, hr]
      exact h1
    | some e =>
      obtain ⟨pn, sid⟩ := e
      have hsub : ∀ n, routed tie has n ((name, w) :: rest) =
          if pn = n then (sid, w) :: routed tie has n rest else routed tie has n rest := by
        intro n
        by_cases h : pn = n
        · simp [routed, hr, h]
        · simp [routed, hr, h]
      cases hp : st pn with
      | none =>
        obtain ⟨st', h1, h2⟩ := loadWeights_split tie has rest st hhas (fun n p h => by
          have := hf n p h
          rw [hsub n, if_neg (by rintro rfl; rw [hp] at h; cases h)] at this
          exact this)
        refine ⟨st', ?_, fun n p h => by
          rw [hsub n, if_neg (by rintro rfl; rw [hp] at h; cases h)]; exact h2 n p h⟩
        unfold loadWeights loadOne
        rw [hfun, hr]
        simp only [hp]
        exact h1
      | some p0 =>
        obtain ⟨t0, ht0⟩ := hf pn p0 hp
        rw [hsub pn, if_pos rfl] at ht0
        unfold foldP at ht0
        cases hl : p0.load w sid with
        | none => rw [hl] at ht0; cases ht0
        | some t1 =>
          rw [hl] at ht0
          simp only at ht0
          obtain ⟨st', h1, h2⟩ := loadWeights_split tie has rest
            (fun n => if n = pn then some ⟨t1, p0.loader⟩ else st n)
            (by
              intro n
              by_cases h : n = pn
              · subst h; rw [if_pos rfl, ← hhas, hp]; rfl
              · rw [if_neg h]; exact hhas n)
            (by
              intro n p h
              by_cases hn : n = pn
              · subst hn
                rw [if_pos rfl] at h
                cases h
                exact ⟨t0, ht0⟩
              · rw [if_neg hn] at h
                have := hf n p h
                rw [hsub n, if_neg (fun h => hn h.symm)] at this
                exact this)
          refine ⟨st', ?_, fun n p h => ?_⟩
          · unfold loadWeights loadOne
            rw [hfun, hr]
            simp only [hp, hl]
            exact h1
          · by_cases hn : n = pn
            · subst hn
              rw [hp] at h
              cases h
              obtain ⟨t, g1, g2⟩ := h2 n ⟨t1, p0.loader⟩ (if_pos rfl)
              refine ⟨t, ?_, g2⟩
              rw [hsub n, if_pos rfl]
              unfold foldP
              rw [hl]
              exact g1
            · obtain ⟨t, g1, g2⟩ := h2 n p (by rw [if_neg hn]; exact h)
              exact ⟨t, by rw [hsub n, if_neg (fun h => hn h.symm)]; exact g1, g2⟩

theorem copyFrom_same {p w : Tn α} (h : p.shape = w.shape) :
    ∃ t, copyFrom p w = some t ∧ t.shape = p.shape ∧ t.Same w := by
  have hzip : ∀ l : List Nat, (l.zip l).all (fun (a, b) => b == a || b == 1) = true := by
    intro l; induction l with
    | nil => rfl
    | cons a l ih => simp [ih]
  unfold copyFrom
  rw [h, Nat.sub_self, List.drop_zero, if_pos ⟨le_rfl, hzip _⟩]
  refine ⟨_, rfl, rfl, rfl, fun ix hix => ?_⟩
  simp only [List.drop_zero]
  congr 1
  have : ∀ (sh ix : List Nat), InB sh ix → (ix.zip sh).map (fun (i, b) => if b = 1 then 0 else i) = ix := by
    intro sh
    induction sh with
    | nil => intro ix hix; cases ix with
      | nil => rfl
      | cons _ _ => cases hix
    | cons s sh ih => intro ix hix; cases ix with
      | nil => cases hix
      | cons i ix =>
        simp only [List.zip_cons_cons, List.map_cons, ih ix hix.2]
        congr 1
        have := hix.1
        split
        · omega
        · rfl
  exact this _ _ hix

/-- A parameter without shards: the same tensor, any number of times (at least once). -/
theorem foldP_single [NatCast α] {c : Tn α} :
    ∀ (l : List (Option ShardId × Tn α)) (p : Param α), (p.loader = .base ∨ p.loader = .plain) → p.data.shape = c.shape →
      (∀ e ∈ l, e = (none, c)) →
      ∃ t, foldP p l = some t ∧ t.shape = p.data.shape ∧ ((l ≠ [] ∨ p.data.Same c) → t.Same c)
  | [], p, _, _, _ => ⟨p.data, rfl, rfl, fun h => h.resolve_left (fun h => h rfl)⟩
  | e :: l, p, hl, hs, hall => by
    have he := hall e List.mem_cons_self
    subst he
    have hload : ∃ t, p.load c none = some t ∧ t.shape = p.data.shape ∧ t.Same c := by
      unfold Param.load
      rcases hl with h | h
      · rw [h]; exact copyFrom_same hs
      · rw [h]
        simp only [hs, if_true]
        exact ⟨_, rfl, rfl, rfl, fun _ _ => rfl⟩
    obtain ⟨t, h1, h2, h3⟩ := hload
    obtain ⟨u, g1, g2, g3⟩ := foldP_single l ⟨t, p.loader⟩ hl (by show t.shape = _; rw [h2, hs])
      (fun e he => hall e (List.mem_cons_of_mem _ he))
    refine ⟨u, ?_, ?_, fun _ => g3 (Or.inr h3)⟩
    · unfold foldP; rw [h1]; exact g1
    · rw [g2]; exact h2

/-- A fused parameter. -/
theorem foldP_merged [NatCast α] {m : Merged} {d : Option Nat} :
    ∀ (l : List (ShardId × Tn α)) (p : Param α), p.loader = .merged m d →
      foldP p (l.map (fun e => (some e.1, e.2))) = m.loadAll p.data d l
  | [], p, _ => rfl
  | (id, t) :: l, p, hl => by
    show foldP p ((some id, t) :: l.map (fun e => (some e.1, e.2))) = _
    unfold foldP Merged.loadAll
    have : p.load t (some id) = m.load p.data d t (some id) := by unfold Param.load; rw [hl]
    rw [this]
    cases m.load p.data d t (some id) with
    | none => rfl
    | some t' =>
      simp only
      exact foldP_merged l ⟨t', p.loader⟩ hl

/-- The list of shards, stripped of `some`. -/
theorem strip_some {l : List (Option ShardId × Tn α)} (h : ∀ e ∈ l, e.1 ≠ none) :
    ∃ l' : List (ShardId × Tn α), l = l'.map (fun e => (some e.1, e.2)) := by
  induction l with
  | nil => exact ⟨[], rfl⟩
  | cons e l ih =>
    obtain ⟨l', hl'⟩ := ih (fun x hx => h x (List.mem_cons_of_mem _ hx))
    obtain ⟨s, t⟩ := e
    cases s with
    | none => exact absurd rfl (h (none, t) List.mem_cons_self)
    | some s => exact ⟨(s, t) :: l', by rw [List.map_cons, ← hl']⟩

/-! ### The theorem -/

/-- A checkpoint file: its tensors in some order, each stored under one of the accepted prefixes; besides them
there may be tensors the loader skips. -/
def Checkpoint (c : QCfg) (has : Name → Bool) (ck : CKey → Tn α) (loads : List (Name × Tn α)) : Prop :=
  (∀ e ∈ loads, (∃ f k, c.stores k = true ∧ e = (k.name f, ck k)) ∨ route c.tie has e.1 = none) ∧
  ∀ k, c.stores k = true → ∃ f, (k.name f, ck k) ∈ loads

theorem stores_has {c : QCfg} {k : CKey} (h : c.stores k = true) : c.has k.target.1 = true := by
  cases k with
  | embed => rfl
  | norm => rfl
  | head => exact h
  | layer i w =>
    cases w <;> simp_all [QCfg.stores, QCfg.has, CKey.target, LC.target]

/-- `R k` = the stored tensors that belong to parameter `k`, each at least once, with their shard ids. -/
structure Fills (c : QCfg) (ck : CKey → Tn α) (R : PKey → List (Option ShardId × Tn α)) : Prop where
  inn : ∀ (k : PKey) e, e ∈ R k → ∃ ckey, c.stores ckey = true ∧ ckey.target.1 = k ∧ e = (ckey.target.2, ck ckey)
  out : ∀ ckey, c.stores ckey = true → (ckey.target.2, ck ckey) ∈ R ckey.target.1

theorem target_uniq : ∀ (k : PKey) (ckey : CKey), (∀ i, k ≠ .layer i .qkvW ∧ k ≠ .layer i .qkvB ∧ k ≠ .layer i .guW) →
    ckey.target.1 = k → ∀ c', CKey.target c' = (k, c'.target.2) → c' = ckey := by
  intro k ckey hn h1 c' h2
  have h3 : c'.target.1 = ckey.target.1 := by rw [h1, h2]
  cases c' with
  | embed => cases ckey with
    | embed => rfl
    | norm => cases h3
    | head => cases h3
    | layer _ _ => cases h3
  | norm => cases ckey with
    | embed => cases h3
    | norm => rfl
    | head => cases h3
    | layer _ _ => cases h3
  | head => cases ckey with
    | embed => cases h3
    | norm => cases h3
    | head => rfl
    | layer _ _ => cases h3
  | layer i x => cases ckey with
    | embed => cases h3
    | norm => cases h3
    | head => cases h3
    | layer j y =>
      simp only [CKey.target, PKey.layer.injEq] at h3
      obtain ⟨rfl, h3⟩ := h3
      have hn' := hn i
      rw [← h1] at hn'
      cases x <;> cases y <;> first | rfl | (cases h3; done) | (simp [CKey.target, LC.target] at hn')

theorem fill_single [NatCast α] {c : QCfg} {ck : CKey → Tn α} {R : PKey → List (Option ShardId × Tn α)}
    (hfill : Fills c ck R) (hshape : ∀ k, c.stores k = true → (ck k).shape = c.cshape k) :
    ∀ (k : PKey) (ckey : CKey) p, p.data.shape = c.shape k →
    (p.loader = .base ∨ p.loader = .plain) → c.stores ckey = true → ckey.target = (k, none) →
    c.shape k = c.cshape ckey → (∀ c', CKey.target c' = (k, c'.target.2) → c' = ckey) →
    ∃ t, foldP p (R k) = some t ∧ t.shape = c.shape k ∧ t.Same (ck ckey) := by
  intro k ckey p hs hl hst htg hsh huniq
  obtain ⟨t, h1, h2, h3⟩ := foldP_single (c := ck ckey) _ p hl (by rw [hs, hsh, hshape ckey hst]) (fun e he => by
    obtain ⟨c', _, g2, g3⟩ := hfill.inn k e he
    have : c' = ckey := huniq c' (by rw [← g2])
    rw [g3, this, htg])
  refine ⟨t, h1, by rw [h2, hs], h3 (Or.inl ?_)⟩
  have := hfill.out ckey hst
  rw [htg] at this
  exact List.ne_nil_of_mem this

theorem fill_qkv [NatCast α] {c : QCfg} {ck : CKey → Tn α} {R : PKey → List (Option ShardId × Tn α)}
    (hfill : Fills c ck R) (hshape : ∀ k, c.stores k = true → (ck k).shape = c.cshape k) :
    ∀ (i : Nat) (w : LW) (q k v : LC) p, p.data.shape = c.shape (.layer i w) →
    p.loader = .merged ⟨c.hidden, [c.qSize, c.kvSize, c.kvSize]⟩ (some 0) →
    c.stores (.layer i q) = true → c.stores (.layer i k) = true → c.stores (.layer i v) = true →
    q.target = (w, some (.str "q")) → k.target = (w, some (.str "k")) → v.target = (w, some (.str "v")) →
    (∀ x : LC, x.target.1 = w → x = q ∨ x = k ∨ x = v) →
    (∃ tl, c.shape (.layer i w) = (c.qSize + 2 * c.kvSize) :: tl ∧ c.cshape (.layer i q) = c.qSize :: tl ∧
      c.cshape (.layer i k) = c.kvSize :: tl ∧ c.cshape (.layer i v) = c.kvSize :: tl) →
    ∃ t, foldP p (R (.layer i w)) = some t ∧
      t.shape = c.shape (.layer i w) ∧ IsConcat 0 [ck (.layer i q), ck (.layer i k), ck (.layer i v)] t := by
  intro i w q k v p hs hl sq sk sv tq tk tv hx ⟨tl, e1, e2, e3, e4⟩
  obtain ⟨l', hl'⟩ := strip_some (l := R (.layer i w)) (by
    intro e he
    obtain ⟨c', _, g2, rfl⟩ := hfill.inn _ e he
    cases c' with
    | embed => cases g2
    | norm => cases g2
    | head => cases g2
    | layer j x =>
      simp only [CKey.target, PKey.layer.injEq] at g2 ⊢
      rcases hx x g2.2 with rfl | rfl | rfl
      · rw [tq]; simp
      · rw [tk]; simp
      · rw [tv]; simp)
  rw [hl', foldP_merged l' p hl]
  refine C138_qkv (sh := c.shape (.layer i w)) (sq := c.qSize) (skv := c.kvSize) (by rw [e1]; simp) (by rw [e1]; simp)
    (by rw [hshape _ sq, e1, e2]; rfl) (by rw [hshape _ sk, e1, e3]; rfl) (by rw [hshape _ sv, e1, e4]; rfl) hs ?_
  intro e
  have hmem : e ∈ l' ↔ (some e.1, e.2) ∈ R (.layer i w) := by
    rw [hl', List.mem_map]
    constructor
    · intro h; exact ⟨e, h, rfl⟩
    · rintro ⟨x, hx, h⟩
      have : x = e := Prod.ext (by simpa using congrArg Prod.fst h) (by simpa using congrArg Prod.snd h)
      rwa [← this]
  rw [hmem]
  constructor
  · intro h
    obtain ⟨c', _, g2, g3⟩ := hfill.inn _ _ h
    cases c' with
    | embed => cases g2
    | norm => cases g2
    | head => cases g2
    | layer j x =>
      simp only [CKey.target, PKey.layer.injEq] at g2
      obtain ⟨rfl, g2⟩ := g2
      simp only [CKey.target, Prod.mk.injEq] at g3
      rcases hx x g2 with rfl | rfl | rfl
      · left; rw [tq] at g3; exact Prod.ext (by simpa using g3.1) g3.2
      · right; left; rw [tk] at g3; exact Prod.ext (by simpa using g3.1) g3.2
      · right; right; rw [tv] at g3; exact Prod.ext (by simpa using g3.1) g3.2
  · rintro (rfl | rfl | rfl)
    · have := hfill.out _ sq; simp only [CKey.target, tq] at this; exact this
    · have := hfill.out _ sk; simp only [CKey.target, tk] at this; exact this
    · have := hfill.out _ sv; simp only [CKey.target, tv] at this; exact this

theorem fill_gu [NatCast α] {c : QCfg} {ck : CKey → Tn α} {R : PKey → List (Option ShardId × Tn α)}
    (hfill : Fills c ck R) (hi : 0 < c.inter) (hshape : ∀ k, c.stores k = true → (ck k).shape = c.cshape k)
    (i : Nat) (p : Param α) (hk' : i < c.layers) (hs : p.data.shape = c.shape (.layer i .guW)) (hl : p.loader = c.loader (.layer i .guW)) :
    ∃ t, foldP p (R (.layer i .guW)) = some t ∧ t.shape = c.shape (.layer i .guW) ∧ Correct ck (.layer i .guW) t := by
  have sg : c.stores (.layer i .gW) = true := by simp [QCfg.stores, hk']
  have su : c.stores (.layer i .uW) = true := by simp [QCfg.stores, hk']
  obtain ⟨l', hl'⟩ := strip_some (l := R (.layer i .guW)) (by
    intro e he
    obtain ⟨c', _, g2, rfl⟩ := hfill.inn _ e he
    cases c' with
    | embed => cases g2
    | norm => cases g2
    | head => cases g2
    | layer j x =>
      simp only [CKey.target, PKey.layer.injEq] at g2 ⊢
      have := g2.2
      cases x <;> simp_all [LC.target])
  rw [hl', foldP_merged l' p hl]
  refine C138_numbered (sh := [c.inter + c.inter, c.hidden]) (ts := [ck (.layer i .gW), ck (.layer i .uW)])
    (by simp) (by simp) (by simp; omega) ?_ ?_ hs ?_
  · intro t ht
    simp only [List.mem_cons, List.not_mem_nil, or_false] at ht
    rcases ht with rfl | rfl
    · rw [hshape _ sg]; rfl
    · rw [hshape _ su]; rfl
  · intro j t ht
    match j, ht with
    | 0, ht => cases ht; rw [hshape _ sg]; simp [QCfg.cshape]
    | 1, ht => cases ht; rw [hshape _ su]; simp [QCfg.cshape]
    | j + 2, ht => simp at ht
  · intro e
    have hmem : e ∈ l' ↔ (some e.1, e.2) ∈ R (.layer i .guW) := by
      rw [hl', List.mem_map]
      constructor
      · intro h; exact ⟨e, h, rfl⟩
      · rintro ⟨x, hx, h⟩
        have : x = e := Prod.ext (by simpa using congrArg Prod.fst h) (by simpa using congrArg Prod.snd h)
        rwa [← this]
    rw [hmem]
    constructor
    · intro h
      obtain ⟨c', _, g2, g3⟩ := hfill.inn _ _ h
      cases c' with
      | embed => cases g2
      | norm => cases g2
      | head => cases g2
      | layer j x =>
        simp only [CKey.target, PKey.layer.injEq] at g2
        obtain ⟨rfl, g2⟩ := g2
        simp only [CKey.target, Prod.mk.injEq] at g3
        cases x <;> first
          | (exfalso; revert g2; decide)
          | (exact ⟨0, _, rfl, Prod.ext (by simpa [LC.target] using g3.1) g3.2⟩)
          | (exact ⟨1, _, rfl, Prod.ext (by simpa [LC.target] using g3.1) g3.2⟩)
    · rintro ⟨j, t, ht, rfl⟩
      match j, ht with
      | 0, ht => cases ht; exact hfill.out _ sg
      | 1, ht => cases ht; exact hfill.out _ su
      | j + 2, ht => simp at ht

theorem fill_all [NatCast α] {c : QCfg} {ck : CKey → Tn α} {R : PKey → List (Option ShardId × Tn α)}
    (hfill : Fills c ck R) (hi : 0 < c.inter) (hshape : ∀ k, c.stores k = true → (ck k).shape = c.cshape k) :
    ∀ k p, c.has k = true → p.data.shape = c.shape k → p.loader = c.loader k →
    ∃ t, foldP p (R k) = some t ∧ t.shape = c.shape k ∧ Correct ck k t := by
  intro k p hk hs hl
  cases k with
  | embed =>
    exact fill_single hfill hshape .embed .embed p hs (Or.inr hl) rfl rfl rfl (target_uniq _ _ (by simp) rfl)
  | norm =>
    exact fill_single hfill hshape .norm .norm p hs (Or.inl hl) rfl rfl rfl (target_uniq _ _ (by simp) rfl)
  | head =>
    exact fill_single hfill hshape .head .head p hs (Or.inr hl) hk rfl rfl (target_uniq _ _ (by simp) rfl)
  | layer i w =>
    cases w with
    | qkvW =>
      have hk' : decide (i < c.layers) = true := hk
      exact fill_qkv hfill hshape i .qkvW .qW .kW .vW p hs hl (by simp [QCfg.stores]; simpa using hk')
        (by simp [QCfg.stores]; simpa using hk') (by simp [QCfg.stores]; simpa using hk') rfl rfl rfl
        (by intro x; cases x <;> decide) ⟨[c.hidden], rfl, rfl, rfl, rfl⟩
    | qkvB =>
      have hk' : (decide (i < c.layers) && c.bias) = true := hk
      exact fill_qkv hfill hshape i .qkvB .qB .kB .vB p hs hl hk' hk' hk' rfl rfl rfl
        (by intro x; cases x <;> decide) ⟨[], rfl, rfl, rfl, rfl⟩
    | guW =>
      exact fill_gu hfill hi hshape i p (by simpa [QCfg.has] using hk) hs hl
    | oW =>
      exact fill_single hfill hshape _ (.layer i .oW) p hs (Or.inl hl) (by simpa [QCfg.stores, QCfg.has] using hk) rfl rfl
        (target_uniq _ _ (by simp) rfl)
    | oB =>
      exact fill_single hfill hshape _ (.layer i .oB) p hs (Or.inl hl) (by simpa [QCfg.stores, QCfg.has] using hk) rfl rfl
        (target_uniq _ _ (by simp) rfl)
    | qn =>
      exact fill_single hfill hshape _ (.layer i .qn) p hs (Or.inl hl) (by simpa [QCfg.stores, QCfg.has] using hk) rfl rfl
        (target_uniq _ _ (by simp) rfl)
    | kn =>
      exact fill_single hfill hshape _ (.layer i .kn) p hs (Or.inl hl) (by simpa [QCfg.stores, QCfg.has] using hk) rfl rfl
        (target_uniq _ _ (by simp) rfl)
    | dW =>
      exact fill_single hfill hshape _ (.layer i .dW) p hs (Or.inl hl) (by simpa [QCfg.stores, QCfg.has] using hk) rfl rfl
        (target_uniq _ _ (by simp) rfl)
    | ln1 =>
      exact fill_single hfill hshape _ (.layer i .ln1) p hs (Or.inl hl) (by simpa [QCfg.stores, QCfg.has] using hk) rfl rfl
        (target_uniq _ _ (by simp) rfl)
    | ln2 =>
      exact fill_single hfill hshape _ (.layer i .ln2) p hs (Or.inl hl) (by simpa [QCfg.stores, QCfg.has] using hk) rfl rfl
        (target_uniq _ _ (by simp) rfl)

/-- **C139** (partial: only for checkpoints that hold every tensor with its right shape).  Whatever the number
of layers, the order of the tensors in the file, the prefix convention, and whatever else the file contains that
is skipped: `load_weights` succeeds and every parameter of the model holds the checkpoint's tensor — the fused
ones the concatenation of theirs. -/
theorem C139_load_partial [NatCast α] {c : QCfg} {st : Store α} {ck : CKey → Tn α} {loads : List (Name × Tn α)}
    (hfresh : Fresh c st) (hi : 0 < c.inter)
    (hshape : ∀ k, c.stores k = true → (ck k).shape = c.cshape k)
    (hck : Checkpoint c (fun n => (st n).isSome) ck loads) :
    ∃ st', loadWeights c.tie st loads = some st' ∧
      ∀ k, c.has k = true → ∃ p, st' k.name = some p ∧ p.data.shape = c.shape k ∧ Correct ck k p.data := by
  obtain ⟨hf1, hf2⟩ := hfresh
  have hroute : ∀ f k, c.stores k = true →
      route c.tie (fun n => (st n).isSome) (k.name f) = some (k.target.1.name, k.target.2) := by
    intro f k hk
    refine route_ck _ _ f k ?_ ?_
    · obtain ⟨p, hp, _⟩ := hf1 _ (stores_has hk)
      simp [hp]
    · rintro rfl
      simpa [QCfg.stores] using hk
  -- what is routed to parameter `k`
  have hin : ∀ (k : PKey) e, e ∈ routed c.tie (fun n => (st n).isSome) k.name loads →
      ∃ ckey, c.stores ckey = true ∧ ckey.target.1 = k ∧ e = (ckey.target.2, ck ckey) := by
    intro k e he
    obtain ⟨x, hx, hxe⟩ := List.mem_filterMap.1 he
    rcases hck.1 x hx with ⟨f, ckey, h1, rfl⟩ | h
    · simp only [hroute f ckey h1] at hxe
      by_cases hn : ckey.target.1.name = k.name
      · rw [if_pos hn] at hxe
        exact ⟨ckey, h1, name_inj hn, by simpa using hxe.symm⟩
      · rw [if_neg hn] at hxe; cases hxe
    · rw [h] at hxe; cases hxe
  have hout : ∀ ckey, c.stores ckey = true →
      (ckey.target.2, ck ckey) ∈ routed c.tie (fun n => (st n).isSome) ckey.target.1.name loads := by
    intro ckey h
    obtain ⟨f, hm⟩ := hck.2 ckey h
    refine List.mem_filterMap.2 ⟨_, hm, ?_⟩
    simp only [hroute f ckey h, if_true]
  have hfill : Fills c ck (fun k => routed c.tie (fun n => (st n).isSome) k.name loads) := ⟨hin, hout⟩
  have hall := fill_all hfill hi hshape
  clear hin hout hroute hck
  obtain ⟨st', h1, h2⟩ := loadWeights_split c.tie (fun n => (st n).isSome) loads st (fun _ => rfl) (by
    intro n p hp
    obtain ⟨k, hk, rfl⟩ := hf2 n (by rw [hp]; rfl)
    obtain ⟨p', g1, g2, g3⟩ := hf1 k hk
    rw [hp] at g1
    cases g1
    obtain ⟨t, ht, _⟩ := hall k p hk g2 g3
    exact ⟨t, ht⟩)
  refine ⟨st', h1, fun k hk => ?_⟩
  obtain ⟨p, g1, g2, g3⟩ := hf1 k hk
  obtain ⟨t, ht, hts, htc⟩ := hall k p hk g2 g3
  obtain ⟨u, hu, hst⟩ := h2 k.name p g1
  rw [ht] at hu
  cases hu
  exact ⟨⟨t, p.loader⟩, hst, hts, htc⟩

end Verif.Shard
