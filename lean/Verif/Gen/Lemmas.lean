import Verif.Gen.Spec

namespace Verif.Gen

variable {σ T : Type}

theorem genPick_eq (E : Engine σ T) (a : Args) : genPick E a = Sampler E a := by
  funext s l
  unfold genPick Sampler orD
  rcases a.temperature with _ | t <;> rcases a.topK with _ | k <;> rcases a.topP with _ | p <;>
    rcases a.doSample with _ | d <;>
    simp only [Option.getD] <;> split_ifs <;> simp_all

theorem streamPick_eq (E : Engine σ T) (a : Args) : streamPick E a = Sampler E a := by
  rw [← genPick_eq]; rfl

/-- The way a run of at most `n` further steps from step `i` ends after `k` steps. -/
structure Ends (tok : Nat → Int) (eos : Int) (i n k : Nat) (byEos : Bool) : Prop where
  le : k ≤ n
  before : ∀ j, j + 1 < k → tok (i + j) ≠ eos
  last : match byEos with
    | true => ∃ m, k = m + 1 ∧ tok (i + m) = eos
    | false => k = n ∧ ∀ j, j < n → tok (i + j) ≠ eos

theorem Ends.zero (tok : Nat → Int) (eos : Int) (i : Nat) : Ends tok eos i 0 0 false :=
  ⟨le_refl _, fun _ h => absurd h (by omega), rfl, fun _ h => absurd h (by omega)⟩

theorem Ends.now {tok : Nat → Int} {eos : Int} {i n : Nat} (h : tok i = eos) :
    Ends tok eos i (n + 1) 1 true :=
  ⟨by omega, fun _ h => absurd h (by omega), 0, rfl, h⟩

theorem Ends.later {tok : Nat → Int} {eos : Int} {i n k : Nat} {b : Bool} (h : tok i ≠ eos)
    (e : Ends tok eos (i + 1) n k b) : Ends tok eos i (n + 1) (k + 1) b := by
  refine ⟨by have := e.le; omega, ?_, ?_⟩
  · intro j hj
    cases j with
    | zero => exact h
    | succ j => have := e.before j (by omega); rwa [show i + 1 + j = i + (j + 1) by omega] at this
  · cases b with
    | true =>
      obtain ⟨m, hm, ht⟩ := e.last
      exact ⟨m + 1, by omega, by rwa [show i + 1 + m = i + (m + 1) by omega] at ht⟩
    | false =>
      obtain ⟨hk, ht⟩ := e.last
      refine ⟨by omega, ?_⟩
      intro j hj
      cases j with
      | zero => exact h
      | succ j => have := ht j (by omega); rwa [show i + 1 + j = i + (j + 1) by omega] at this

theorem Ends.stops {tok : Nat → Int} {eos : Int} {M : Int} {k : Nat} {b : Bool}
    (e : Ends tok eos 0 M.toNat k b) : StopsAt tok eos M k := by
  refine ⟨by have := e.le; omega, fun i hi => by simpa using e.before i hi, ?_⟩
  cases b with
  | true => obtain ⟨m, hm, ht⟩ := e.last; exact Or.inr ⟨m, hm, by simpa using ht⟩
  | false => obtain ⟨hk, _⟩ := e.last; left; omega

/-- Where a run stops is determined. -/
theorem StopsAt.unique {tok : Nat → Int} {eos M : Int} {n m : Nat} (h : StopsAt tok eos M n)
    (g : StopsAt tok eos M m) : n = m := by
  have aux : ∀ n m, StopsAt tok eos M n → StopsAt tok eos M m → ¬ n < m := by
    intro n m h g hlt
    rcases h.reason with hr | ⟨j, hj, he⟩
    · have := g.le_max; omega
    · exact g.no_eos_before j (by omega) he
  have := aux n m h g; have := aux m n g h; omega

theorem range_map_cons {α : Type} (f : Nat → α) (k : Nat) :
    (List.range (k + 1)).map f = f 0 :: (List.range k).map (fun j => f (j + 1)) := by
  rw [List.range_succ_eq_map, List.map_cons, List.map_map]; rfl

section
variable (E : Engine σ T) (a : Args) (s : σ) (input : Past T)

theorem cfg_succ (d : σ → T → σ × Int) (i : Nat) :
    cfg E d s input (i + 1) = (specStep E d (cfg E d s input i)).1 := rfl

/-- The loop of `generate`, started anywhere in the endless run. -/
theorem genLoop_spec (eos : Int) (n : Nat) : ∀ (i : Nat) (acc : List Int) (steps : Nat),
    ∃ k b, Ends (tokAt E (Sampler E a) s input) eos i n k b ∧
      genLoop E a eos n (cfg E (Sampler E a) s input i).1 (cfg E (Sampler E a) s input i).2
        acc steps =
      ⟨(cfg E (Sampler E a) s input (i + k)).1,
       (cfg E (Sampler E a) s input (if b then i + k - 1 else i + k)).2,
       acc ++ (List.range k).map (fun j => tokAt E (Sampler E a) s input (i + j)),
       if b then steps + k - 1 else steps + k⟩ := by
  induction n with
  | zero => intro i acc steps; exact ⟨0, false, Ends.zero _ _ _, by simp [genLoop]⟩
  | succ n ih =>
    intro i acc steps
    by_cases ht : tokAt E (Sampler E a) s input i = eos
    · refine ⟨1, true, Ends.now ht, ?_⟩
      have hd : (specStep E (Sampler E a) (cfg E (Sampler E a) s input i)).2 = eos := ht
      unfold specStep at hd
      simp only [genLoop, genPick_eq]
      rw [if_pos hd]
      simp [cfg_succ, specStep, tokAt]
    · obtain ⟨k, b, he, hr⟩ := ih (i + 1) (acc ++ [tokAt E (Sampler E a) s input i]) (steps + 1)
      refine ⟨k + 1, b, Ends.later ht he, ?_⟩
      have hd : ¬ (specStep E (Sampler E a) (cfg E (Sampler E a) s input i)).2 = eos := ht
      unfold specStep at hd
      simp only [genLoop, genPick_eq]
      rw [if_neg hd]
      refine Eq.trans (b := genLoop E a eos n (cfg E (Sampler E a) s input (i + 1)).1
        (cfg E (Sampler E a) s input (i + 1)).2
        (acc ++ [tokAt E (Sampler E a) s input i]) (steps + 1)) rfl ?_
      rw [hr, range_map_cons]
      have e1 : i + 1 + k = i + (k + 1) := by omega
      have e2 : (fun j => tokAt E (Sampler E a) s input (i + 1 + j)) =
          (fun j => tokAt E (Sampler E a) s input (i + (j + 1))) := by
        funext j; congr 1; omega
      rw [e1, e2]
      cases b <;> simp <;> omega

/-- The loop of `streamGenerate`, started anywhere in the endless run. -/
theorem streamLoop_spec {γ : Type} (cb : γ → Int → γ) (eos : Int) (n : Nat) :
    ∀ (i : Nat) (g : γ) (steps : Nat),
    ∃ k b, Ends (tokAt E (Sampler E a) s input) eos i n k b ∧
      streamLoop E a eos cb n (cfg E (Sampler E a) s input i).1 (cfg E (Sampler E a) s input i).2
        g steps =
      ((cfg E (Sampler E a) s input (i + k)).1,
       ((List.range k).map (fun j => tokAt E (Sampler E a) s input (i + j))).foldl cb g,
       if b then steps + k - 1 else steps + k) := by
  induction n with
  | zero => intro i g steps; exact ⟨0, false, Ends.zero _ _ _, by simp [streamLoop]⟩
  | succ n ih =>
    intro i g steps
    by_cases ht : tokAt E (Sampler E a) s input i = eos
    · refine ⟨1, true, Ends.now ht, ?_⟩
      have hd : (specStep E (Sampler E a) (cfg E (Sampler E a) s input i)).2 = eos := ht
      unfold specStep at hd
      simp only [streamLoop, streamPick_eq]
      rw [if_pos hd]
      simp [cfg_succ, specStep, tokAt]
    · obtain ⟨k, b, he, hr⟩ := ih (i + 1) (cb g (tokAt E (Sampler E a) s input i)) (steps + 1)
      refine ⟨k + 1, b, Ends.later ht he, ?_⟩
      have hd : ¬ (specStep E (Sampler E a) (cfg E (Sampler E a) s input i)).2 = eos := ht
      unfold specStep at hd
      simp only [streamLoop, streamPick_eq]
      rw [if_neg hd]
      refine Eq.trans (b := streamLoop E a eos cb n (cfg E (Sampler E a) s input (i + 1)).1
        (cfg E (Sampler E a) s input (i + 1)).2
        (cb g (tokAt E (Sampler E a) s input i)) (steps + 1)) rfl ?_
      rw [hr, range_map_cons]
      have e1 : i + 1 + k = i + (k + 1) := by omega
      have e2 : (fun j => tokAt E (Sampler E a) s input (i + 1 + j)) =
          (fun j => tokAt E (Sampler E a) s input (i + (j + 1))) := by
        funext j; congr 1; omega
      rw [e1, e2]
      cases b <;> simp <;> omega

/-- The iterator about to perform step `i`. -/
def pre (i : Nat) (cs ct : Int) : Iter σ T :=
  { hasGen := true, st := (cfg E (Sampler E a) s input i).1,
    input := (cfg E (Sampler E a) s input i).2, curStep := cs, curTok := ct, finished := false,
    count := i,
    temperature := orD a.temperature 1, topK := orD a.topK 0, topP := orD a.topP 0,
    maxLength := orD a.maxLength E.maxLengthD, eos := orD a.eos E.eosD,
    doSample := orD a.doSample E.doSampleD, steps := i }

theorem pre_done (i : Nat) (cs ct : Int) (h : orD a.maxLength E.maxLengthD ≤ i) :
    (pre E a s input i cs ct).step E = { pre E a s input i cs ct with finished := true } := by
  simp [Iter.step, pre, h]

theorem pre_step (i : Nat) (cs ct : Int) (h : (i : Int) < orD a.maxLength E.maxLengthD) :
    (pre E a s input i cs ct).step E =
      { pre E a s input (i + 1) i (tokAt E (Sampler E a) s input i) with
        finished := decide (tokAt E (Sampler E a) s input i = orD a.eos E.eosD) } := by
  have hp : ∀ s1 l, (pre E a s input i cs ct).pick E s1 l = Sampler E a s1 l := by
    intro s1 l; rw [← genPick_eq]; rfl
  have h0 : ¬ ((pre E a s input i cs ct).finished || !(pre E a s input i cs ct).hasGen) = true := by
    simp [pre]
  have h1 : ¬ (pre E a s input i cs ct).count ≥ (pre E a s input i cs ct).maxLength := by
    change ¬ (i : Int) ≥ _; exact not_le.mpr h
  unfold Iter.step
  rw [if_neg h0, if_neg h1]
  simp only [hp]
  by_cases ht : tokAt E (Sampler E a) s input i = orD a.eos E.eosD
  · simp only [ht, decide_true]
    have hd := ht
    unfold tokAt specStep at hd
    simp only [pre, cfg_succ, specStep]
    simp
    exact ⟨hd, if_pos hd⟩
  · have hd := ht
    unfold tokAt specStep at hd
    simp only [pre, cfg_succ, specStep]
    simp [hd, ht]
    rfl

theorem rangeFor_spec {γ : Type} (body : γ → Int × Int → γ) (n : Nat) :
    ∀ (i : Nat) (fuel : Nat) (cs ct : Int) (g : γ), n = (orD a.maxLength E.maxLengthD).toNat - i →
    n < fuel → ∃ k b it, Ends (tokAt E (Sampler E a) s input) (orD a.eos E.eosD) i n k b ∧
      rangeFor E body fuel ((pre E a s input i cs ct).step E) g =
        some (it, ((List.range (if b then k - 1 else k)).map
          (fun j => (((i + j : Nat) : Int), tokAt E (Sampler E a) s input (i + j)))).foldl body g) ∧
      it.st = (cfg E (Sampler E a) s input (i + k)).1 ∧ it.finished = true ∧
      it.steps = i + k := by
  induction n with
  | zero =>
    intro i fuel cs ct g hn hf
    refine ⟨0, false, { pre E a s input i cs ct with finished := true }, Ends.zero _ _ _, ?_, rfl,
      rfl, rfl⟩
    cases fuel with
    | zero => omega
    | succ f =>
      rw [pre_done E a s input i cs ct (by omega)]
      simp [rangeFor, Iter.isEnd]
  | succ n ih =>
    intro i fuel cs ct g hn hf
    cases fuel with
    | zero => omega
    | succ f =>
      rw [pre_step E a s input i cs ct (by omega)]
      by_cases ht : tokAt E (Sampler E a) s input i = orD a.eos E.eosD
      · refine ⟨1, true, { pre E a s input (i + 1) i (tokAt E (Sampler E a) s input i) with
          finished := decide (tokAt E (Sampler E a) s input i = orD a.eos E.eosD) },
          Ends.now ht, ?_, rfl, by simp [ht], rfl⟩
        simp [rangeFor, Iter.isEnd, ht]
      · obtain ⟨k, b, it, he, hr, h1, h2, h3⟩ := ih (i + 1) f i (tokAt E (Sampler E a) s input i)
          (body g (i, tokAt E (Sampler E a) s input i)) (by omega) (by omega)
        have hb : b = true → 1 ≤ k := by
          intro hb; subst hb; obtain ⟨m, hm, _⟩ := he.last; omega
        refine ⟨k + 1, b, it, Ends.later ht he, ?_, ?_, h2, by omega⟩
        · have hpre : ({ pre E a s input (i + 1) i (tokAt E (Sampler E a) s input i) with
              finished := decide (tokAt E (Sampler E a) s input i = orD a.eos E.eosD) } :
                Iter σ T) = pre E a s input (i + 1) i (tokAt E (Sampler E a) s input i) := by
            simp [pre, ht]
          rw [hpre]
          have hnext : Iter.next E (pre E a s input (i + 1) i (tokAt E (Sampler E a) s input i)) =
              (pre E a s input (i + 1) i (tokAt E (Sampler E a) s input i)).step E := by
            simp [Iter.next, pre]
          have hend : Iter.isEnd (pre E a s input (i + 1) i (tokAt E (Sampler E a) s input i)) =
              false := by simp [Iter.isEnd, pre]
          simp only [rangeFor, hend, hnext, Bool.false_eq_true, if_false]
          refine Eq.trans hr ?_
          have hk : (if b = true then k + 1 - 1 else k + 1) = (if b = true then k - 1 else k) + 1 := by
            cases b with
            | true => have := hb rfl; simp; omega
            | false => simp
          rw [hk, range_map_cons, List.foldl_cons]
          have e2 : (fun j => (((i + 1 + j : Nat) : Int), tokAt E (Sampler E a) s input (i + 1 + j)))
              = (fun j => (((i + (j + 1) : Nat) : Int),
                  tokAt E (Sampler E a) s input (i + (j + 1)))) := by
            funext j; rw [show i + 1 + j = i + (j + 1) by omega]
          rw [e2]
          rfl
        · rw [h1]; congr 2; omega

end

end Verif.Gen
