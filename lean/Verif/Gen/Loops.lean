import Verif.Gen.Lemmas

/-!
# C63, C64: what a generation returns
-/

namespace Verif.Gen

variable {σ T : Type}

/-- Only the last token before the stop can be the end-of-sequence token. -/
theorem Ends.filter {tok : Nat → Int} {eos : Int} {n k : Nat} {b : Bool}
    (e : Ends tok eos 0 n k b) :
    (List.range k).filter (fun i => tok i ≠ eos) = List.range (if b then k - 1 else k) := by
  cases b with
  | false =>
    obtain ⟨hk, h⟩ := e.last
    simp only [Bool.false_eq_true, if_false]
    rw [List.filter_eq_self]
    intro i hi
    have := h i (by rw [List.mem_range] at hi; omega)
    simpa using this
  | true =>
    obtain ⟨m, hm, h⟩ := e.last
    subst hm
    simp only [if_true, Nat.add_sub_cancel]
    rw [List.range_succ, List.filter_append]
    have h1 : (List.range m).filter (fun i => decide (tok i ≠ eos)) = List.range m := by
      rw [List.filter_eq_self]
      intro i hi
      have := e.before i (by rw [List.mem_range] at hi; omega)
      simpa using this
    rw [h1]
    have h2 : tok m = eos := by simpa using h
    simp [h2]

theorem orD_eq {α : Type} (o : Option α) (d : α) : orD o d = o.getD d := by cases o <;> rfl

theorem generate_of (E : Engine σ T) (a : Args) (s : σ) (input : Past T) (r : GenOut σ T)
    (h : genLoop E a (orD a.eos E.eosD) (orD a.maxLength E.maxLengthD).toNat s input [] 0 = r) :
    generate E a s input = ⟨r.st, ((r.past.set "logits" E.nil).set "input_ids" E.nil).set
      "generated_sequence" (E.seqOf r.tokens), r.tokens, r.steps⟩ := by
  subst h; rfl

/-- **C63.** For every model, every sampler, every random draw, every option set and every input,
there is one number `n`, the place where the endless run (see `Spec.lean`) meets the first
end-of-sequence token or the length limit, such that

* `generate` returns exactly the first `n` tokens of that run (also under the key
  `"generated_sequence"`),
* `streamGenerate` calls the callback on exactly those tokens, once each and in order,
* looping over `chat` reaches the end of the range and runs the body on exactly those tokens that
  are not the end-of-sequence token, numbered from 0, in order,
* and all three leave the model and the random source in the same state. -/
theorem generation_modes_agree (E : Engine σ T) (a : Args) (s : σ) (input : Past T) :
    ∃ n : Nat,
      StopsAt (tokAt E (Sampler E a) s input) (a.eos.getD E.eosD)
        (a.maxLength.getD E.maxLengthD) n ∧
      (generate E a s input).tokens = (List.range n).map (tokAt E (Sampler E a) s input) ∧
      (generate E a s input).past "generated_sequence" =
        some (E.seqOf ((List.range n).map (tokAt E (Sampler E a) s input))) ∧
      (generate E a s input).st = (cfg E (Sampler E a) s input n).1 ∧
      (∀ (γ : Type) (cb : γ → Int → γ) (g : γ),
        (streamGenerate E a cb s input g).2.1 =
          ((List.range n).map (tokAt E (Sampler E a) s input)).foldl cb g ∧
        (streamGenerate E a cb s input g).1 = (cfg E (Sampler E a) s input n).1) ∧
      (∀ (γ : Type) (body : γ → Int × Int → γ) (g : γ) (fuel : Nat),
        (a.maxLength.getD E.maxLengthD).toNat < fuel →
        ∃ it, chat E a body fuel s input g =
            some (it, (((List.range n).filter
              (fun i => tokAt E (Sampler E a) s input i ≠ a.eos.getD E.eosD)).map
              (fun i : Nat => ((i : Int), tokAt E (Sampler E a) s input i))).foldl body g) ∧
          it.st = (cfg E (Sampler E a) s input n).1) := by
  have horD := @orD_eq
  obtain ⟨n, b, he, hr⟩ := genLoop_spec E a s input (orD a.eos E.eosD)
    (orD a.maxLength E.maxLengthD).toNat 0 [] 0
  have hg := generate_of E a s input _ hr
  simp only [Nat.zero_add, List.nil_append] at hg
  have hst := he.stops
  rw [horD, horD] at hst
  refine ⟨n, hst, by rw [hg], ?_, by rw [hg], ?_, ?_⟩
  · rw [hg]; simp [Past.set]
  · intro γ cb g
    obtain ⟨n', b', he', hr'⟩ := streamLoop_spec E a s input cb (orD a.eos E.eosD)
      (orD a.maxLength E.maxLengthD).toNat 0 g 0
    obtain rfl : n' = n := he'.stops.unique he.stops
    simp only [Nat.zero_add] at hr'
    have hs : streamGenerate E a cb s input g = _ := hr'
    rw [hs]
    exact ⟨rfl, rfl⟩
  · intro γ body g fuel hf
    obtain ⟨n', b', it, he', hr', h1, _, _⟩ := rangeFor_spec E a s input body
      (orD a.maxLength E.maxLengthD).toNat 0 fuel (-1) 0 g (by simp) (by rw [horD]; exact hf)
    obtain rfl : n' = n := he'.stops.unique he.stops
    refine ⟨it, ?_, by simpa using h1⟩
    rw [← horD a.eos, he'.filter]
    simp only [Nat.zero_add] at hr'
    exact hr'

/-- A model that counts: it returns its own step number as the logits, and greedy sampling copies
the logits; token 3 is the end-of-sequence token. -/
def counter : Engine Nat Int where
  forward s p := (s + 1, p.set "sequence" (s : Int))
  greedy s l := (s, l)
  sampleTopK k _ s l := (s, l + 100 * k)
  sampleTopP _ _ s l := (s, l + 1000)
  sampleTemp _ s l := (s, l + 2000)
  tok t := t
  seqOf l := l.length
  nil := -1
  maxLengthD := 1024
  eosD := 3
  doSampleD := false

/-- `generation_modes_agree` is not vacuous: with end-of-sequence, without, and with top-k. -/
example : (generate counter {} 0 (fun _ => none)).tokens = [0, 1, 2, 3] ∧
    (streamGenerate counter {} (fun g t => g ++ [t]) 0 (fun _ => none) ([] : List Int)).2.1 =
      [0, 1, 2, 3] ∧
    ((chat counter {} (fun g t => g ++ [t]) 2000 0 (fun _ => none)
      ([] : List (Int × Int))).map (·.2)) = some [(0, 0), (1, 1), (2, 2)] ∧
    (generate counter { maxLength := some 2 } 0 (fun _ => none)).tokens = [0, 1] ∧
    (generate counter { maxLength := some (-5) } 0 (fun _ => none)).tokens = [] ∧
    (generate counter { maxLength := some 2, topK := some 1, topP := some (1/2) } 0
      (fun _ => none)).tokens = [100, 101] := by
  decide +kernel

/-! ## C64: continuing from the returned map -/

/-- The three keys `generate` itself writes into the returned map. -/
def Extra (k : String) : Prop := k = "logits" ∨ k = "input_ids" ∨ k = "generated_sequence"

/-- Two maps that differ at most in those keys. -/
def SameUpTo (p q : Past T) : Prop := ∀ k, ¬ Extra k → p k = q k

/-- The model does not look at the keys `generate` writes. -/
def IgnoresExtra (E : Engine σ T) : Prop :=
  ∀ s p q, SameUpTo p q → E.forward s p = E.forward s q

theorem cfg_same (E : Engine σ T) (hI : IgnoresExtra E) (d : σ → T → σ × Int) (s : σ)
    (p q : Past T) (h : SameUpTo p q) (i : Nat) :
    (cfg E d s p i).1 = (cfg E d s q i).1 ∧ SameUpTo (cfg E d s p i).2 (cfg E d s q i).2 := by
  induction i with
  | zero => exact ⟨rfl, h⟩
  | succ i ih =>
    have hf : E.forward (cfg E d s p i).1 (cfg E d s p i).2 =
        E.forward (cfg E d s q i).1 (cfg E d s q i).2 := by rw [ih.1]; exact hI _ _ _ ih.2
    have : specStep E d (cfg E d s p i) = specStep E d (cfg E d s q i) := by
      unfold specStep; rw [hf]
    rw [cfg_succ, cfg_succ, this]
    exact ⟨rfl, fun _ _ => rfl⟩

theorem tokAt_same (E : Engine σ T) (hI : IgnoresExtra E) (d : σ → T → σ × Int) (s : σ)
    (p q : Past T) (h : SameUpTo p q) (i : Nat) : tokAt E d s p i = tokAt E d s q i := by
  have ih := cfg_same E hI d s p q h i
  have hf : E.forward (cfg E d s p i).1 (cfg E d s p i).2 =
      E.forward (cfg E d s q i).1 (cfg E d s q i).2 := by rw [ih.1]; exact hI _ _ _ ih.2
  unfold tokAt specStep; rw [hf]

theorem cfg_shift (E : Engine σ T) (d : σ → T → σ × Int) (s : σ) (p : Past T) (n i : Nat) :
    cfg E d (cfg E d s p n).1 (cfg E d s p n).2 i = cfg E d s p (n + i) := by
  induction i with
  | zero => rfl
  | succ i ih => rw [cfg_succ, ih]; rfl

theorem tokAt_shift (E : Engine σ T) (d : σ → T → σ × Int) (s : σ) (p : Past T) (n i : Nat) :
    tokAt E d (cfg E d s p n).1 (cfg E d s p n).2 i = tokAt E d s p (n + i) := by
  unfold tokAt; rw [cfg_shift]

/-- Arguments with another length limit. -/
def Args.limit (a : Args) (n : Nat) : Args := { a with maxLength := some n }

theorem StopsAt.shift {tok : Nat → Int} {eos : Int} {n m k : Nat}
    (hn : ∀ i, i < n → tok i ≠ eos)
    (h : StopsAt (fun i => tok (n + i)) eos (m : Int) k) :
    StopsAt tok eos ((n + m : Nat) : Int) (n + k) := by
  refine ⟨by have := h.le_max; omega, ?_, ?_⟩
  · intro i hi
    by_cases hlt : i < n
    · exact hn i hlt
    · have := h.no_eos_before (i - n) (by omega)
      rwa [show n + (i - n) = i by omega] at this
  · rcases h.reason with hr | ⟨j, hj, ht⟩
    · left; omega
    · exact Or.inr ⟨n + j, by omega, ht⟩

/-- **C64, the part that holds.** If the first call produced no end-of-sequence token, calling
`generate` again on the returned map (with the model as it is now) continues the same run: the two
token lists together are what one call with the summed limit returns, and the model ends in the
same state.  For every model that does not read the three keys `generate` adds to the map. -/
theorem generate_resumes_partial (E : Engine σ T) (hI : IgnoresExtra E) (a : Args) (s : σ)
    (input : Past T) (n m : Nat)
    (hno : a.eos.getD E.eosD ∉ (generate E (a.limit n) s input).tokens) :
    (generate E (a.limit n) s input).tokens ++
      (generate E (a.limit m) (generate E (a.limit n) s input).st
        (generate E (a.limit n) s input).past).tokens =
      (generate E (a.limit (n + m)) s input).tokens ∧
    (generate E (a.limit m) (generate E (a.limit n) s input).st
        (generate E (a.limit n) s input).past).st =
      (generate E (a.limit (n + m)) s input).st := by
  have hS : ∀ k, Sampler E (a.limit k) = Sampler E a := fun _ => rfl
  obtain ⟨k, b, he, hr⟩ := genLoop_spec E (a.limit n) s input (orD a.eos E.eosD) n 0 [] 0
  have horD : orD a.eos E.eosD = a.eos.getD E.eosD := orD_eq _ _
  have hg := generate_of E (a.limit n) s input _ hr
  simp only [Nat.zero_add, List.nil_append] at hg
  rw [hS] at he hg
  have htok : (generate E (a.limit n) s input).tokens =
      (List.range k).map (tokAt E (Sampler E a) s input) := by
    rw [hg]
  have hall : ∀ i, i < k → tokAt E (Sampler E a) s input i ≠ a.eos.getD E.eosD := by
    intro i hi hEq
    exact hno (htok ▸ List.mem_map.mpr ⟨i, List.mem_range.mpr hi, hEq⟩)
  have hb : b = false := by
    cases b with
    | false => rfl
    | true =>
      obtain ⟨j, hj, ht⟩ := he.last
      exact absurd (horD ▸ (by simpa using ht)) (hall j (by omega))
  subst hb
  obtain ⟨hk, _⟩ := he.last
  subst hk
  have hst : (generate E (a.limit k) s input).st = (cfg E (Sampler E a) s input k).1 := by
    rw [hg]
  have hpast : SameUpTo (generate E (a.limit k) s input).past
      (cfg E (Sampler E a) s input k).2 := by
    intro key hkey
    have h1 : key ≠ "logits" := fun h => hkey (Or.inl h)
    have h2 : key ≠ "input_ids" := fun h => hkey (Or.inr (Or.inl h))
    have h3 : key ≠ "generated_sequence" := fun h => hkey (Or.inr (Or.inr h))
    rw [hg]
    simp only [Past.set, if_neg h1, if_neg h2, if_neg h3]
    rfl
  obtain ⟨n2, hs2, ht2, _, hst2, _⟩ := generation_modes_agree E (a.limit m)
    (generate E (a.limit k) s input).st (generate E (a.limit k) s input).past
  obtain ⟨n3, hs3, ht3, _, hst3, _⟩ := generation_modes_agree E (a.limit (k + m)) s input
  have htt : ∀ i, tokAt E (Sampler E a) (generate E (a.limit k) s input).st
      (generate E (a.limit k) s input).past i = tokAt E (Sampler E a) s input (k + i) := by
    intro i
    rw [tokAt_same E hI _ _ _ _ hpast, hst, tokAt_shift]
  have hfun : tokAt E (Sampler E a) (generate E (a.limit k) s input).st
      (generate E (a.limit k) s input).past = fun i => tokAt E (Sampler E a) s input (k + i) :=
    funext htt
  rw [hS, hfun] at hs2 ht2
  have h3 : n3 = k + n2 := hs3.unique (StopsAt.shift hall hs2)
  refine ⟨?_, ?_⟩
  · rw [ht2, ht3, htok, h3, List.range_add, List.map_append, List.map_map]
    rfl
  · rw [hst2, hst3, h3, hS, hS]
    have := (cfg_same E hI (Sampler E a) (generate E (a.limit k) s input).st _ _ hpast n2).1
    rw [this, hst, cfg_shift]

/-- `counter` reads no key at all, and its first three tokens contain no end-of-sequence token:
the hypotheses of `generate_resumes_partial` are met and both sides are `[0, 1, 2, 3]`. -/
example : IgnoresExtra ({ counter with forward := fun s p => (s + 1, fun k =>
      if k = "sequence" then some (s : Int) else none) } : Engine Nat Int) ∧
    (3 : Int) ∉ (generate counter (Args.limit {} 2) 0 (fun _ => none)).tokens ∧
    (generate counter (Args.limit {} (2 + 7)) 0 (fun _ => none)).tokens = [0, 1, 2, 3] :=
  ⟨fun _ _ _ _ => rfl, by decide +kernel, by decide +kernel⟩

/-- A model whose next token is one more than the token it is fed. -/
def successor : Engine Unit Int where
  forward _ p := ((), fun k => if k = "sequence" then some (orD (p "sequence") 0 + 1) else none)
  greedy _ l := ((), l)
  sampleTopK _ _ _ l := ((), l)
  sampleTopP _ _ _ l := ((), l)
  sampleTemp _ _ l := ((), l)
  tok t := t
  seqOf l := l.length
  nil := 0
  maxLengthD := 1024
  eosD := 3
  doSampleD := false

/-- **C64 is violated** when the first call ended with the end-of-sequence token: the returned
map still carries the token *before* it, so a second call feeds that token again and produces the
end-of-sequence token a second time, where the run itself would have gone on with 4. -/
theorem generate_resumes_violated :
    IgnoresExtra successor ∧
    (generate successor {} () (fun _ => none)).tokens = [1, 2, 3] ∧
    (generate successor {} () (fun _ => none)).past "sequence" = some 2 ∧
    (generate successor (Args.limit {} 1) (generate successor {} () (fun _ => none)).st
      (generate successor {} () (fun _ => none)).past).tokens = [3] ∧
    tokAt successor (Sampler successor {}) () (fun _ => none) 3 = 4 := by
  refine ⟨?_, by decide +kernel, by decide +kernel, by decide +kernel, by decide +kernel⟩
  intro s p q h
  have : p "sequence" = q "sequence" := h "sequence" (by simp [Extra])
  simp only [successor, this]

end Verif.Gen
