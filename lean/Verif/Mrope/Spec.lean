import Verif.Mrope.Model

/-! # What a multi-dimensional rotary embedding is

Read this with `Props.lean`; nothing here depends on the model. -/

namespace Verif.Mrope

variable {R : Type} [CommRing R]

/-- The position dimension (0: time, 1: height, 2: width) that turns the pair `j`.  Interleaved: pairs are dealt out t, h, w, t, h, w, ...
while the section of h or w lasts, then t; otherwise: `s_t` pairs for t, `s_h` for h, the rest for w. -/
def axis (inter : Bool) (sec : Nat × Nat × Nat) (j : Nat) : Nat :=
  if inter then (if j % 3 = 1 ∧ j < 3 * sec.2.1 then 1 else if j % 3 = 2 ∧ j < 3 * sec.2.2 then 2 else 0)
  else if j < sec.1 then 0 else if j < sec.1 + sec.2.1 then 1 else 2

/-- Turning the pair `(x j, x (j + half))` by the angle of cosine `C j` and sine `S j`, for all `j < half`; the rest is kept. -/
def rotated (half : Nat) (C S x : Nat → R) (d : Nat) : R :=
  if d < half then x d * C d - x (d + half) * S d
  else if d < 2 * half then x d * C (d - half) + x (d - half) * S (d - half)
  else x d

end Verif.Mrope
