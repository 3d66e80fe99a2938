import Verif.Stream.Model

/-!
# What streaming generation is supposed to deliver
-/
namespace Verif.Stream

/-- `ts` is the answer of a language model that samples `nx 0`, `nx 1`, …: its tokens in order, at most `max`, no EOS
before the last one, and it stops only because of an EOS or the limit. -/
def IsAnswer (nx : Nat → Int) (eos : List Int) (max : Nat) (ts : List Int) : Prop :=
  ts = (List.range ts.length).map nx ∧ ts.length ≤ max ∧ (∀ i, i + 1 < ts.length → nx i ∉ eos) ∧
  (ts.length = max ∨ ∃ i, ts.length = i + 1 ∧ nx i ∈ eos)

/-- Calling `++it` until `it == end()`: the outputs after each call, in order. -/
def Produces {σ β : Type} (adv : σ → σ) (isEnd : σ → Bool) (cur : σ → β) (s : σ) (outs : List β) : Prop :=
  outs = (List.range outs.length).map (fun i => cur (adv^[i + 1] s)) ∧
  (∀ i, i < outs.length → isEnd (adv^[i] s) = false) ∧ isEnd (adv^[outs.length] s) = true

/-- An EOS token has a text, and it does not end in the last byte of a replacement character. -/
def PlainEnd (d : Int → Str) (eos : List Int) : Prop := ∀ t ∈ eos, ∃ x b, d t = x ++ [b] ∧ b ≠ 0xBD

/-- Has the loop over the speech generator ended?  (An undefined operation ends everything.) -/
def sEnd {α : Type} : SIt α → Bool
  | none => true
  | some (_, b, _) => b

/-- `*it`. -/
def sCur {α : Type} (s : SIt α) : Option (Out α) := s.map fun x => x.2.2

/-- Before the first call. -/
def sStart {α : Type} : SIt α := some (SSt.init, false, ⟨[], none, false⟩)

/-- The prepared text always gives at least the 303 ids the speech model reserves (2 at the start, 300 for text, 1 at
the end). -/
def Fits {α : Type} (e : Env α) : Prop := ∀ t, 303 ≤ (e.enc (prepare e t).1).length

/-- The speech model samples its EOS for the first time in call `k`. -/
def SpeechEnds {α : Type} (e : Env α) (k : Nat) : Prop := (∀ j, j < k → e.stop j = none) ∧ e.stop k ≠ none

/-- The samples `x a, …, x (a + n - 1)` of a signal. -/
def seg {α : Type} (x : Nat → α) (a n : Nat) : List α := (List.range n).map fun i => x (a + i)

/-- The waveforms of calls `0..k` are pieces of one signal, each sharing 2048 samples with the next (the four audio
tokens that are decoded again), and none shorter than two overlaps. -/
def Windows {α : Type} (e : Env α) (k : Nat) (x : Nat → α) (a n : Nat → Nat) : Prop :=
  ∀ j, j ≤ k → e.wav j = seg x (a j) (n j) ∧ 4096 ≤ n j ∧ (j < k → a (j + 1) + 2048 = a j + n j)

/-- All samples in a list of outputs, in order. -/
def samples {α : Type} (outs : List (Out α)) : List α := (outs.map fun o => o.wav.getD []).flatten

/-- The speech tokenizer treats the bracketed markers around the text as single tokens and the text as if it stood
alone. -/
def Marks {α : Type} (e : Env α) (st sp et pd pt : Int) : Prop := ∀ t, (e.enc t).length < 300 →
  e.enc (prepare e t).1 = [st, sp] ++ e.enc t ++ (et :: List.replicate (300 - (e.enc t).length - 1) pd) ++ [pt]

/-- What the speech model should have read: the start marker, the speaker, the tokens of the text, the end marker. -/
def script {α : Type} (e : Env α) (st sp et : Int) (t : Str) : List Int := [st, sp] ++ e.enc t ++ [et]

/-- The text so far, after `n` calls. -/
def textAfter {α : Type} [Field α] (e : Env α) (c : SCfg) (n : Nat) : Option Str := ((sAdvance e c)^[n] sStart).map fun x => x.1.raw

/-- The text token in the speech model's cache at a position, after `n` calls. -/
def cacheAfter {α : Type} [Field α] (e : Env α) (c : SCfg) (n p : Nat) : Option Int :=
  ((sAdvance e c)^[n] sStart).bind fun x => x.1.cache p

end Verif.Stream
