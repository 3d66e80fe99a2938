import Verif.Prelude
import Mathlib.Analysis.SpecialFunctions.Pow.Real

/-!
# Gated delta rule: the reference recurrence

What a user means by "the recurrent layer has read these tokens": one token after the other, each
decaying the state, writing its value along its key, and reading the state along its query.  This
file knows nothing of chunks, batches or pools.
-/

namespace Verif.Gdn

/-- State matrix of one head, `[V, K]`. -/
abbrev Mat (V K : ℕ) := Fin V → Fin K → ℝ

/-- Inner product of two key-dimension vectors. -/
def dot {K : ℕ} (x y : Fin K → ℝ) : ℝ := ∑ a, x a * y a

/-- Matrix times vector. -/
def app {V K : ℕ} (S : Mat V K) (x : Fin K → ℝ) : Fin V → ℝ := fun i => dot (S i) x

/-- One token as one head sees it: normalised query and key, value, log decay, gate. -/
structure Tok (K V : ℕ) where
  q : Fin K → ℝ
  k : Fin K → ℝ
  v : Fin V → ℝ
  g : ℝ
  beta : ℝ

/-- The state after one more token. -/
noncomputable def next {K V : ℕ} (S : Mat V K) (x : Tok K V) : Mat V K := fun i a =>
  Real.exp x.g * S i a + x.beta * (x.v i - Real.exp x.g * app S x.k i) * x.k a

/-- The state after the first `n` tokens. -/
noncomputable def stateAfter {K V : ℕ} (S : Mat V K) (x : ℕ → Tok K V) : ℕ → Mat V K
  | 0 => S
  | n + 1 => next (stateAfter S x n) (x n)

/-- What token `t` reads: the state after it, along its query. -/
noncomputable def outAt {K V : ℕ} (S : Mat V K) (x : ℕ → Tok K V) (t : ℕ) : Fin V → ℝ :=
  app (stateAfter S x (t + 1)) (x t).q

end Verif.Gdn

/-! ## A whole layer reading one request -/

namespace Verif.Gdn

/-- Shape of a layer: key heads, value heads, key and value dimension, and the number of past rows
the causal convolution remembers (its kernel is one wider). -/
structure Shape where
  H : ℕ
  HV : ℕ
  K : ℕ
  V : ℕ
  w : ℕ

/-- Learned parameters: convolution weight `[channel, tap]`, decay and bias per value head. -/
structure Par where
  convW : ℕ → ℕ → ℝ
  aLog : ℕ → ℝ
  dtBias : ℕ → ℝ

/-- One token as the layer receives it: its projected row and its two raw gate rows. -/
structure Row where
  x : ℕ → ℝ
  a : ℕ → ℝ
  b : ℕ → ℝ

/-- What the layer remembers about a request: the last `w` rows, oldest first, and the matrix of
every value head. -/
structure Mem (s : Shape) where
  conv : Fin s.w → ℕ → ℝ
  ssm : ℕ → Mat s.V s.K

noncomputable def silu (x : ℝ) : ℝ := x / (1 + Real.exp (-x))
noncomputable def sigmoid (x : ℝ) : ℝ := 1 / (1 + Real.exp (-x))
noncomputable def softplus (x : ℝ) : ℝ := if x ≤ 20 then Real.log (1 + Real.exp x) else x

/-- A vector divided by its length (plus the usual epsilon). -/
noncomputable def unit {K : ℕ} (x : Fin K → ℝ) : Fin K → ℝ := fun a =>
  x a / (Real.sqrt (∑ e, x e * x e) + 1e-6)

/-- The key head a value head shares. -/
def keyHead (s : Shape) (h : ℕ) : ℕ := if s.H ≠ s.HV then h / (s.HV / s.H) else h

/-- The convolved and activated channel `d` of a token, given the rows remembered before it. -/
noncomputable def channel {s : Shape} (p : Par) (m : Fin s.w → ℕ → ℝ) (x : ℕ → ℝ) (d : ℕ) : ℝ :=
  silu ((∑ j, m j d * p.convW d j) + x d * p.convW d s.w)

/-- The token as value head `h` sees it. -/
noncomputable def headTok {s : Shape} (p : Par) (m : Fin s.w → ℕ → ℝ) (r : Row) (h : ℕ) :
    Tok s.K s.V where
  q a := unit (fun e : Fin s.K => channel p m r.x (keyHead s h * s.K + e)) a
    * (s.K : ℝ) ^ (-(1 / 2) : ℝ)
  k := unit (fun e : Fin s.K => channel p m r.x (s.H * s.K + (keyHead s h * s.K + e)))
  v d := channel p m r.x (s.H * s.K + s.H * s.K + (h * s.V + d))
  g := -Real.exp (p.aLog h) * softplus (r.a h + p.dtBias h)
  beta := sigmoid (r.b h)

/-- The rows remembered after one more. -/
def remember {w : ℕ} (m : Fin w → ℕ → ℝ) (x : ℕ → ℝ) : Fin w → ℕ → ℝ := fun j =>
  if h : j.1 + 1 < w then m ⟨j.1 + 1, h⟩ else x

/-- The layer's memory after one more token. -/
noncomputable def Mem.read {s : Shape} (p : Par) (m : Mem s) (r : Row) : Mem s where
  conv := remember m.conv r.x
  ssm h := next (m.ssm h) (headTok p m.conv r h)

/-- What the layer answers for that token: one vector per value head. -/
noncomputable def Mem.answer {s : Shape} (p : Par) (m : Mem s) (r : Row) (h : ℕ) : Fin s.V → ℝ :=
  app ((m.read p r).ssm h) (headTok p m.conv r h).q

/-- The memory after the first `n` tokens. -/
noncomputable def Mem.after {s : Shape} (p : Par) (m : Mem s) (r : ℕ → Row) : ℕ → Mem s
  | 0 => m
  | n + 1 => (Mem.after p m r n).read p (r n)

end Verif.Gdn
