import Verif.Args.Model
/- C34: what parsing a command line assigns. -/
namespace Verif.Args

/-! ### Specification: a command line is a sequence of segments -/

/-- A flag alone, a flag with its value, or a positional. -/
inductive Seg where
  | flag (t : Tok)
  | valued (t w : Tok)
  | pos (t : Tok)
  deriving DecidableEq, Repr

def Seg.toks : Seg → List Tok
  | .flag t => [t]
  | .valued t w => [t, w]
  | .pos t => [t]

/-- `o`, at index `i`, is the first option that declares `t`. -/
def Declares {V : Type} (opts : List (Opt V)) (t : Tok) (i : Nat) (o : Opt V) : Prop :=
  opts[i]? = some o ∧ t ∈ o.flags ∧ ∀ j p, j < i → opts[j]? = some p → t ∉ p.flags

/-- The token begins with `-`. -/
def Dashed (t : Tok) : Prop := ∃ r, t = '-' :: r

/-- Boolean options stand alone, the others are followed by their value, and a positional does not begin with `-`. -/
def Seg.Ok {V : Type} (opts : List (Opt V)) : Seg → Prop
  | .flag t => Dashed t ∧ ∃ i o, Declares opts t i o ∧ o.isBool = true
  | .valued t _ => Dashed t ∧ ∃ i o, Declares opts t i o ∧ o.isBool = false
  | .pos t => ¬ Dashed t

/-- `segs` is a reading of the command line. -/
def Reading {V : Type} (opts : List (Opt V)) (argv : List Tok) (segs : List Seg) : Prop :=
  argv = segs.flatMap Seg.toks ∧ ∀ s ∈ segs, s.Ok opts

/-- The positionals, in order. -/
def positionals (segs : List Seg) : List Tok := segs.filterMap fun s => match s with | .pos t => some t | _ => none

/-- What a segment assigns: the option and the value. -/
def Assigns {V : Type} (opts : List (Opt V)) : Seg → Nat → V → Prop
  | .flag t, i, v => ∃ o, Declares opts t i o ∧ v = o.tt
  | .valued t w, i, v => ∃ o, Declares opts t i o ∧ o.conv w = some v
  | .pos _, _, _ => False

/-- Option `i` is the `k`-th (from 0) of the positional options. -/
def NthPositional {V : Type} (opts : List (Opt V)) (k i : Nat) (o : Opt V) : Prop :=
  opts[i]? = some o ∧ o.positional = true ∧ ((opts.take i).filter (·.positional)).length = k

/-- Value of option `i` from the flags: the last segment that assigns it, else what it had. -/
def FromFlags {V : Type} (opts : List (Opt V)) (st : Vals V) (segs : List Seg) (i : Nat) (x : Option V) : Prop :=
  (∃ a s b v, segs = a ++ s :: b ∧ Assigns opts s i v ∧ (∀ s' ∈ b, ∀ v', ¬ Assigns opts s' i v') ∧ x = some v) ∨
  ((∀ s ∈ segs, ∀ v, ¬ Assigns opts s i v) ∧ x = st i)

/-- The result of reading `segs`. -/
structure Result {V : Type} (opts : List (Opt V)) (st : Vals V) (segs : List Seg) (st' : Vals V) : Prop where
  /-- every value given converts -/
  convert : ∀ t w, .valued t w ∈ segs → ∀ i o, Declares opts t i o → (o.conv w).isSome
  /-- the `k`-th positional option has the `k`-th positional -/
  positional : ∀ k i o w, NthPositional opts k i o → (positionals segs)[k]? = some w → ∃ v, o.conv w = some v ∧ st' i = some v
  /-- the others have what the flags give -/
  flags : ∀ i, (∀ k o w, NthPositional opts k i o → (positionals segs)[k]? ≠ some w) → FromFlags opts st segs i (st' i)
  /-- required options have a value; required positional options got it as a positional -/
  required : ∀ i o, opts[i]? = some o → o.required = true → (st' i).isSome
  requiredPos : ∀ k i o, NthPositional opts k i o → o.required = true → k < (positionals segs).length

/-! ### Lemmas -/

theorem dash_iff (t : Tok) : dash t = true ↔ Dashed t := by
  unfold Dashed
  cases t with
  | nil => simp [dash]
  | cons c r =>
    simp only [dash, beq_iff_eq]
    constructor
    · rintro rfl; exact ⟨r, rfl⟩
    · rintro ⟨r', h⟩; cases h; rfl

theorem find_declares {V : Type} {opts : List (Opt V)} {t : Tok} {i : Nat} (h : findOpt opts t = some i) :
    ∃ o, Declares opts t i o := by
  unfold findOpt at h
  rw [List.findIdx?_eq_some_iff_getElem] at h
  obtain ⟨hi, h1, h2⟩ := h
  refine ⟨opts[i], List.getElem?_eq_getElem hi, by simpa using h1, ?_⟩
  intro j p hj hp
  have h3 := h2 j hj
  obtain ⟨hj', rfl⟩ := List.getElem?_eq_some_iff.1 hp
  simpa using h3

theorem declares_find {V : Type} {opts : List (Opt V)} {t : Tok} {i : Nat} {o : Opt V} (h : Declares opts t i o) :
    findOpt opts t = some i := by
  obtain ⟨h1, h2, h3⟩ := h
  obtain ⟨hi, rfl⟩ := List.getElem?_eq_some_iff.1 h1
  unfold findOpt
  rw [List.findIdx?_eq_some_iff_getElem]
  refine ⟨hi, by simpa using h2, ?_⟩
  intro j hj
  simpa using h3 j _ hj (List.getElem?_eq_getElem (by omega))

theorem find_none {V : Type} {opts : List (Opt V)} {t : Tok} :
    findOpt opts t = none ↔ ∀ i o, ¬ Declares opts t i o := by
  constructor
  · intro h i o hd; rw [declares_find hd] at h; cases h
  · intro h
    cases hf : findOpt opts t with
    | none => rfl
    | some i => obtain ⟨o, ho⟩ := find_declares hf; exact absurd ho (h i o)

theorem declares_unique {V : Type} {opts : List (Opt V)} {t : Tok} {i j : Nat} {o p : Opt V} (h1 : Declares opts t i o)
    (h2 : Declares opts t j p) : i = j ∧ o = p := by
  have h3 := declares_find h1
  rw [declares_find h2] at h3
  cases h3
  have h4 := h1.1
  rw [h2.1] at h4
  cases h4
  exact ⟨rfl, rfl⟩

/-- The state after the assignments of the segments. -/
def applySegs {V : Type} (opts : List (Opt V)) (st : Vals V) : List Seg → Option (Vals V)
  | [] => some st
  | .pos _ :: ss => applySegs opts st ss
  | .flag t :: ss =>
    match findOpt opts t with
    | none => none
    | some i =>
      match opts[i]? with
      | none => none
      | some o => applySegs opts (setVal st i o.tt) ss
  | .valued t w :: ss =>
    match findOpt opts t with
    | none => none
    | some i =>
      match opts[i]? with
      | none => none
      | some o =>
        match o.conv w with
        | none => none
        | some v => applySegs opts (setVal st i v) ss

theorem not_dashed {t : Tok} (h : ¬ Dashed t) : dash t = false := by
  rw [← Bool.not_eq_true, dash_iff]; exact h

theorem loop_pos {V : Type} (opts : List (Opt V)) (t : Tok) (rest : List Tok) (st : Vals V) (pos : List Tok)
    (h : ¬ Dashed t) : optLoop opts (t :: rest) st pos = optLoop opts rest st (pos ++ [t]) := by
  rw [optLoop]; simp [not_dashed h]

theorem loop_flag {V : Type} (opts : List (Opt V)) (t : Tok) (rest : List Tok) (st : Vals V) (pos : List Tok)
    (h : Dashed t) {i : Nat} {o : Opt V} (hd : Declares opts t i o) (hb : o.isBool = true) :
    optLoop opts (t :: rest) st pos = optLoop opts rest (setVal st i o.tt) pos := by
  rw [optLoop]; simp [(dash_iff t).2 h, declares_find hd, hd.1, hb]

theorem loop_valued {V : Type} (opts : List (Opt V)) (t w : Tok) (rest : List Tok) (st : Vals V) (pos : List Tok)
    (h : Dashed t) {i : Nat} {o : Opt V} (hd : Declares opts t i o) (hb : o.isBool = false) :
    (o.conv w = none → optLoop opts (t :: w :: rest) st pos = .error (.invalid w)) ∧
    ∀ v, o.conv w = some v → optLoop opts (t :: w :: rest) st pos = optLoop opts rest (setVal st i v) pos := by
  constructor
  · intro hc; rw [optLoop]; simp [(dash_iff t).2 h, declares_find hd, hd.1, hb, hc]
  · intro v hc; rw [optLoop]; simp [(dash_iff t).2 h, declares_find hd, hd.1, hb, hc]

theorem loop_last {V : Type} (opts : List (Opt V)) (t : Tok) (st : Vals V) (pos : List Tok)
    (h : Dashed t) {i : Nat} {o : Opt V} (hd : Declares opts t i o) (hb : o.isBool = false) :
    optLoop opts [t] st pos = .error (.missingValue t) := by
  rw [optLoop]; simp [(dash_iff t).2 h, declares_find hd, hd.1, hb]

theorem loop_unknown {V : Type} (opts : List (Opt V)) (t : Tok) (rest : List Tok) (st : Vals V) (pos : List Tok)
    (h : Dashed t) (hd : ∀ i o, ¬ Declares opts t i o) : optLoop opts (t :: rest) st pos = .error (.unknown t) := by
  rw [optLoop]; simp [(dash_iff t).2 h, find_none.2 hd]

/-- The loop on the tokens of good segments. -/
theorem loop_segs {V : Type} {opts : List (Opt V)} : ∀ (segs : List Seg) (rest : List Tok) (st : Vals V) (pos : List Tok),
    (∀ s ∈ segs, s.Ok opts) →
    (∀ st', applySegs opts st segs = some st' →
      optLoop opts (segs.flatMap Seg.toks ++ rest) st pos = optLoop opts rest st' (pos ++ positionals segs)) ∧
    (applySegs opts st segs = none → ∃ a t w b, segs = a ++ .valued t w :: b ∧
      (∃ i o, Declares opts t i o ∧ o.conv w = none) ∧
      optLoop opts (segs.flatMap Seg.toks ++ rest) st pos = .error (.invalid w)) := by
  intro segs
  induction segs with
  | nil =>
    intro rest st pos _
    constructor
    · intro st' h; rw [applySegs] at h; cases h; simp [positionals]
    · intro h; rw [applySegs] at h; cases h
  | cons s ss ih =>
    intro rest st pos hok
    have hok' : ∀ s ∈ ss, s.Ok opts := fun s hs => hok s (List.mem_cons_of_mem _ hs)
    have h0 := hok s (List.mem_cons_self ..)
    cases s with
    | pos t =>
      have hl : optLoop opts ((Seg.pos t :: ss).flatMap Seg.toks ++ rest) st pos =
          optLoop opts (ss.flatMap Seg.toks ++ rest) st (pos ++ [t]) := loop_pos opts t _ st pos h0
      obtain ⟨ih1, ih2⟩ := ih rest st (pos ++ [t]) hok'
      constructor
      · intro st' h
        rw [hl, ih1 st' h]
        simp [positionals]
      · intro h
        obtain ⟨a, t', w, b, e, hd, hl2⟩ := ih2 h
        exact ⟨.pos t :: a, t', w, b, by rw [e]; rfl, hd, by rw [hl, hl2]⟩
    | flag t =>
      obtain ⟨hda, i, o, hd, hb⟩ := h0
      have hl : optLoop opts ((Seg.flag t :: ss).flatMap Seg.toks ++ rest) st pos =
          optLoop opts (ss.flatMap Seg.toks ++ rest) (setVal st i o.tt) pos := loop_flag opts t _ st pos hda hd hb
      have ha : applySegs opts st (.flag t :: ss) = applySegs opts (setVal st i o.tt) ss := by
        simp [applySegs, declares_find hd, hd.1]
      obtain ⟨ih1, ih2⟩ := ih rest (setVal st i o.tt) pos hok'
      rw [ha, hl]
      constructor
      · intro st' h
        rw [ih1 st' h]
        simp [positionals]
      · intro h
        obtain ⟨a, t', w, b, e, hd, hl2⟩ := ih2 h
        exact ⟨.flag t :: a, t', w, b, by rw [e]; rfl, hd, hl2⟩
    | valued t w =>
      obtain ⟨hda, i, o, hd, hb⟩ := h0
      have hl := loop_valued opts t w (ss.flatMap Seg.toks ++ rest) st pos hda hd hb
      have ee : (Seg.valued t w :: ss).flatMap Seg.toks ++ rest = t :: w :: (ss.flatMap Seg.toks ++ rest) := rfl
      cases hc : o.conv w with
      | none =>
        have ha : applySegs opts st (.valued t w :: ss) = none := by
          simp [applySegs, declares_find hd, hd.1, hc]
        rw [ee, hl.1 hc, ha]
        refine ⟨by simp, fun _ => ⟨[], t, w, ss, rfl, ⟨i, o, hd, hc⟩, rfl⟩⟩
      | some v =>
        have ha : applySegs opts st (.valued t w :: ss) = applySegs opts (setVal st i v) ss := by
          simp [applySegs, declares_find hd, hd.1, hc]
        rw [ee, hl.2 v hc, ha]
        obtain ⟨ih1, ih2⟩ := ih rest (setVal st i v) pos hok'
        constructor
        · intro st' h
          rw [ih1 st' h]
          simp [positionals]
        · intro h
          obtain ⟨a, t', w', b, e, hd, hl2⟩ := ih2 h
          exact ⟨.valued t w :: a, t', w', b, by rw [e]; rfl, hd, hl2⟩

/-- Every command line begins with good segments, up to its end, to an unknown flag, or to a flag without value. -/
theorem cover {V : Type} (opts : List (Opt V)) : ∀ (n : Nat) (argv : List Tok), argv.length ≤ n →
    ∃ segs : List Seg, (∀ s ∈ segs, s.Ok opts) ∧
      (argv = segs.flatMap Seg.toks ∨
       (∃ t rest, argv = segs.flatMap Seg.toks ++ t :: rest ∧ Dashed t ∧ ∀ i o, ¬ Declares opts t i o) ∨
       (∃ t, argv = segs.flatMap Seg.toks ++ [t] ∧ Dashed t ∧ ∃ i o, Declares opts t i o ∧ o.isBool = false)) := by
  have glue : ∀ (s : Seg) (argv : List Tok), s.Ok opts →
      (∃ segs : List Seg, (∀ s ∈ segs, s.Ok opts) ∧
      (argv = segs.flatMap Seg.toks ∨
       (∃ t rest, argv = segs.flatMap Seg.toks ++ t :: rest ∧ Dashed t ∧ ∀ i o, ¬ Declares opts t i o) ∨
       (∃ t, argv = segs.flatMap Seg.toks ++ [t] ∧ Dashed t ∧ ∃ i o, Declares opts t i o ∧ o.isBool = false))) →
      ∃ segs : List Seg, (∀ s ∈ segs, s.Ok opts) ∧
      (s.toks ++ argv = segs.flatMap Seg.toks ∨
       (∃ t rest, s.toks ++ argv = segs.flatMap Seg.toks ++ t :: rest ∧ Dashed t ∧ ∀ i o, ¬ Declares opts t i o) ∨
       (∃ t, s.toks ++ argv = segs.flatMap Seg.toks ++ [t] ∧ Dashed t ∧ ∃ i o, Declares opts t i o ∧ o.isBool = false)) := by
    rintro s argv hs ⟨segs, h1, h2⟩
    refine ⟨s :: segs, ?_, ?_⟩
    · intro s' hs'
      rcases List.mem_cons.1 hs' with rfl | h
      · exact hs
      · exact h1 s' h
    · rcases h2 with rfl | ⟨t, rest, rfl, h3⟩ | ⟨t, rfl, h3⟩
      · exact .inl (by simp)
      · exact .inr (.inl ⟨t, rest, by simp, h3⟩)
      · exact .inr (.inr ⟨t, by simp, h3⟩)
  intro n
  induction n with
  | zero =>
    intro argv h
    have : argv = [] := List.length_eq_zero_iff.1 (by omega)
    subst this
    exact ⟨[], by simp, .inl rfl⟩
  | succ n ih =>
    intro argv h
    cases argv with
    | nil => exact ⟨[], by simp, .inl rfl⟩
    | cons t rest =>
      have hr : rest.length ≤ n := by simpa using h
      by_cases hd : Dashed t
      · by_cases hdec : ∃ i o, Declares opts t i o
        · obtain ⟨i, o, ho⟩ := hdec
          cases hb : o.isBool with
          | true => exact glue (.flag t) rest ⟨hd, i, o, ho, hb⟩ (ih rest hr)
          | false =>
            cases rest with
            | nil => exact ⟨[], by simp, .inr (.inr ⟨t, rfl, hd, i, o, ho, hb⟩)⟩
            | cons w rest' =>
              exact glue (.valued t w) rest' ⟨hd, i, o, ho, hb⟩ (ih rest' (by simp at hr; omega))
        · exact ⟨[], by simp, .inr (.inl ⟨t, rest, rfl, hd, fun i o ho => hdec ⟨i, o, ho⟩⟩)⟩
      · exact glue (.pos t) rest hd (ih rest hr)

/-- The first segment is determined by the tokens. -/
theorem seg_first {V : Type} {opts : List (Opt V)} {s s' : Seg} {a a' : List Tok} (h : s.Ok opts) (h' : s'.Ok opts)
    (e : s.toks ++ a = s'.toks ++ a') : s = s' ∧ a = a' := by
  cases s <;> cases s' <;> simp only [Seg.toks, List.cons_append, List.nil_append, List.cons.injEq] at e
  · obtain ⟨rfl, rfl⟩ := e; exact ⟨rfl, rfl⟩
  · obtain ⟨rfl, _⟩ := e
    obtain ⟨_, i, o, h1, h2⟩ := h
    obtain ⟨_, j, p, h3, h4⟩ := h'
    obtain ⟨_, rfl⟩ := declares_unique h1 h3
    rw [h2] at h4; cases h4
  · obtain ⟨rfl, _⟩ := e; exact absurd h.1 h'
  · obtain ⟨rfl, _⟩ := e
    obtain ⟨_, i, o, h1, h2⟩ := h
    obtain ⟨_, j, p, h3, h4⟩ := h'
    obtain ⟨_, rfl⟩ := declares_unique h1 h3
    rw [h2] at h4; cases h4
  · obtain ⟨rfl, rfl, rfl⟩ := e; exact ⟨rfl, rfl⟩
  · obtain ⟨rfl, _⟩ := e; exact absurd h.1 h'
  · obtain ⟨rfl, _⟩ := e; exact absurd h'.1 h
  · obtain ⟨rfl, _⟩ := e; exact absurd h'.1 h
  · obtain ⟨rfl, rfl⟩ := e; exact ⟨rfl, rfl⟩

/-- A command line has at most one reading. -/
theorem C34_reading_unique {V : Type} {opts : List (Opt V)} {argv : List Tok} {s1 s2 : List Seg}
    (h1 : Reading opts argv s1) (h2 : Reading opts argv s2) : s1 = s2 := by
  obtain ⟨rfl, h1⟩ := h1
  obtain ⟨e, h2⟩ := h2
  induction s1 generalizing s2 with
  | nil =>
    cases s2 with
    | nil => rfl
    | cons s ss => cases s <;> simp [Seg.toks] at e
  | cons s ss ih =>
    cases s2 with
    | nil => cases s <;> simp [Seg.toks] at e
    | cons s' ss' =>
      rw [List.flatMap_cons, List.flatMap_cons] at e
      obtain ⟨rfl, e'⟩ := seg_first (h1 s (List.mem_cons_self ..)) (h2 s' (List.mem_cons_self ..)) e
      rw [ih (fun x hx => h1 x (List.mem_cons_of_mem _ hx)) e' (fun x hx => h2 x (List.mem_cons_of_mem _ hx))]

/-! #### What the flags give -/

theorem apply_some_iff {V : Type} {opts : List (Opt V)} : ∀ (segs : List Seg) (st : Vals V), (∀ s ∈ segs, s.Ok opts) →
    ((∃ st', applySegs opts st segs = some st') ↔
      ∀ t w, .valued t w ∈ segs → ∀ i o, Declares opts t i o → (o.conv w).isSome) := by
  intro segs
  induction segs with
  | nil => intro st _; simp [applySegs]
  | cons s ss ih =>
    intro st hok
    have hok' : ∀ s ∈ ss, s.Ok opts := fun s hs => hok s (List.mem_cons_of_mem _ hs)
    have h0 := hok s (List.mem_cons_self ..)
    cases s with
    | pos t =>
      rw [applySegs, ih st hok']
      simp
    | flag t =>
      obtain ⟨_, i, o, hd, hb⟩ := h0
      have ha : applySegs opts st (.flag t :: ss) = applySegs opts (setVal st i o.tt) ss := by
        simp [applySegs, declares_find hd, hd.1]
      rw [ha, ih _ hok']
      simp
    | valued t w =>
      obtain ⟨_, i, o, hd, hb⟩ := h0
      cases hc : o.conv w with
      | none =>
        have ha : applySegs opts st (.valued t w :: ss) = none := by
          simp [applySegs, declares_find hd, hd.1, hc]
        rw [ha]
        constructor
        · rintro ⟨_, h⟩; cases h
        · intro h
          have := h t w (List.mem_cons_self ..) i o hd
          rw [hc] at this; cases this
      | some v =>
        have ha : applySegs opts st (.valued t w :: ss) = applySegs opts (setVal st i v) ss := by
          simp [applySegs, declares_find hd, hd.1, hc]
        rw [ha, ih _ hok']
        constructor
        · intro h t' w' hm i' o' hd'
          rcases List.mem_cons.1 hm with e | hm
          · cases e
            obtain ⟨_, rfl⟩ := declares_unique hd hd'
            rw [hc]; rfl
          · exact h t' w' hm i' o' hd'
        · intro h t' w' hm; exact h t' w' (List.mem_cons_of_mem _ hm)

theorem assigns_unique {V : Type} {opts : List (Opt V)} {s : Seg} {i j : Nat} {v w : V} (h1 : Assigns opts s i v)
    (h2 : Assigns opts s j w) : i = j ∧ v = w := by
  cases s with
  | flag t =>
    obtain ⟨o, h3, rfl⟩ := h1
    obtain ⟨p, h4, rfl⟩ := h2
    obtain ⟨rfl, rfl⟩ := declares_unique h3 h4
    exact ⟨rfl, rfl⟩
  | valued t x =>
    obtain ⟨o, h3, h5⟩ := h1
    obtain ⟨p, h4, h6⟩ := h2
    obtain ⟨rfl, rfl⟩ := declares_unique h3 h4
    rw [h5] at h6; cases h6
    exact ⟨rfl, rfl⟩
  | pos t => exact h1.elim

/-- Applying one segment first. -/
theorem fromFlags_cons {V : Type} {opts : List (Opt V)} {st : Vals V} {s : Seg} {ss : List Seg} {j : Nat} {v : V}
    (ha : Assigns opts s j v) {i : Nat} {x : Option V} :
    FromFlags opts (setVal st j v) ss i x ↔ FromFlags opts st (s :: ss) i x := by
  constructor
  · rintro (⟨a, s', b, v', rfl, h1, h2, h3⟩ | ⟨h1, rfl⟩)
    · exact .inl ⟨s :: a, s', b, v', rfl, h1, h2, h3⟩
    · by_cases e : i = j
      · subst e
        exact .inl ⟨[], s, ss, v, rfl, ha, h1, by simp [setVal]⟩
      · refine .inr ⟨?_, by simp [setVal, e]⟩
        intro s' hs' v' hv'
        rcases List.mem_cons.1 hs' with rfl | hs'
        · exact e (assigns_unique hv' ha).1
        · exact h1 s' hs' v' hv'
  · rintro (⟨a, s', b, v', e, h1, h2, h3⟩ | ⟨h1, rfl⟩)
    · cases a with
      | nil =>
        cases e
        obtain ⟨rfl, rfl⟩ := assigns_unique ha h1
        exact .inr ⟨h2, by rw [h3]; simp [setVal]⟩
      | cons _ a => cases e; exact .inl ⟨a, s', b, v', rfl, h1, h2, h3⟩
    · refine .inr ⟨fun s' hs' => h1 s' (List.mem_cons_of_mem _ hs'), ?_⟩
      have : i ≠ j := by rintro rfl; exact h1 s (List.mem_cons_self ..) v ha
      simp [setVal, this]

theorem fromFlags_skip {V : Type} {opts : List (Opt V)} {st : Vals V} {s : Seg} {ss : List Seg}
    (ha : ∀ j v, ¬ Assigns opts s j v) {i : Nat} {x : Option V} :
    FromFlags opts st ss i x ↔ FromFlags opts st (s :: ss) i x := by
  constructor
  · rintro (⟨a, s', b, v', rfl, h1, h2, h3⟩ | ⟨h1, rfl⟩)
    · exact .inl ⟨s :: a, s', b, v', rfl, h1, h2, h3⟩
    · refine .inr ⟨fun s' hs' v' => ?_, rfl⟩
      rcases List.mem_cons.1 hs' with rfl | hs'
      · exact ha i v'
      · exact h1 s' hs' v'
  · rintro (⟨a, s', b, v', e, h1, h2, h3⟩ | ⟨h1, rfl⟩)
    · cases a with
      | nil => cases e; exact absurd h1 (ha _ _)
      | cons _ a => cases e; exact .inl ⟨a, s', b, v', rfl, h1, h2, h3⟩
    · exact .inr ⟨fun s' hs' => h1 s' (List.mem_cons_of_mem _ hs'), rfl⟩

theorem apply_fromFlags {V : Type} {opts : List (Opt V)} : ∀ (segs : List Seg) (st st' : Vals V),
    applySegs opts st segs = some st' → ∀ i x, FromFlags opts st segs i x ↔ x = st' i := by
  intro segs
  induction segs with
  | nil =>
    intro st st' h i x
    rw [applySegs] at h; cases h
    constructor
    · rintro (⟨a, s', b, v', e, _⟩ | ⟨_, rfl⟩)
      · simp at e
      · rfl
    · rintro rfl; exact .inr ⟨by simp, rfl⟩
  | cons s ss ih =>
    intro st st' h i x
    cases s with
    | pos t =>
      rw [← fromFlags_skip (s := .pos t) (fun _ _ h => h)]
      exact ih st st' h i x
    | flag t =>
      rw [applySegs] at h
      cases hf : findOpt opts t with
      | none => rw [hf] at h; cases h
      | some j =>
        obtain ⟨o, ho⟩ := find_declares hf
        simp only [hf, ho.1] at h
        rw [← fromFlags_cons (s := .flag t) (j := j) (v := o.tt) ⟨o, ho, rfl⟩]
        exact ih _ st' h i x
    | valued t w =>
      rw [applySegs] at h
      cases hf : findOpt opts t with
      | none => rw [hf] at h; cases h
      | some j =>
        obtain ⟨o, ho⟩ := find_declares hf
        simp only [hf, ho.1] at h
        cases hc : o.conv w with
        | none => rw [hc] at h; cases h
        | some v =>
          rw [hc] at h
          rw [← fromFlags_cons (s := .valued t w) (j := j) (v := v) ⟨o, ho, hc⟩]
          exact ih _ st' h i x

/-! #### Positional options -/

theorem posLoop_cons {V : Type} (o : Opt V) (os : List (Opt V)) (b : Nat) (st : Vals V) (pos : List Tok) :
    (o.positional = false → posLoop (o :: os) b st pos = posLoop os (b + 1) st pos) ∧
    (o.positional = true → posLoop (o :: os) b st [] = if o.required then .error .missingPositional else posLoop os (b + 1) st []) ∧
    ∀ w, o.positional = true → (o.conv w = none → posLoop (o :: os) b st (w :: pos) = .error (.invalid w)) ∧
      ∀ v, o.conv w = some v → posLoop (o :: os) b st (w :: pos) = posLoop os (b + 1) (setVal st b v) pos := by
  refine ⟨fun h => ?_, fun h => ?_, fun w h => ⟨fun hc => ?_, fun v hc => ?_⟩⟩
  · conv_lhs => unfold posLoop
    simp [h]
  · conv_lhs => unfold posLoop
    simp [h]
  · unfold posLoop; simp [h, hc]
  · conv_lhs => unfold posLoop
    simp [h, hc]

/-- Success of the positional loop. -/
theorem pos_ok_iff {V : Type} : ∀ (os : List (Opt V)) (b : Nat) (st st' : Vals V) (pos : List Tok),
    posLoop os b st pos = .ok st' ↔
      (∀ k i o, NthPositional os k i o → (∀ w, pos[k]? = some w → ∃ v, o.conv w = some v ∧ st' (b + i) = some v) ∧
        (o.required = true → k < pos.length)) ∧
      (∀ n, (∀ k i o w, NthPositional os k i o → n = b + i → pos[k]? ≠ some w) → st' n = st n) := by
  intro os
  induction os with
  | nil =>
    intro b st st' pos
    rw [posLoop]
    constructor
    · rintro h; cases h
      refine ⟨?_, fun _ _ => rfl⟩
      intro k i o h; simp [NthPositional] at h
    · rintro ⟨_, h⟩
      have : st' = st := by
        funext n
        refine h n ?_
        intro k i o w h; simp [NthPositional] at h
      rw [this]
  | cons o os ih =>
    intro b st st' pos
    -- how the positional options of `o :: os` relate to those of `os`
    have n0 : ∀ k p, NthPositional (o :: os) k 0 p ↔ p = o ∧ o.positional = true ∧ k = 0 := by
      intro k p
      unfold NthPositional
      constructor
      · rintro ⟨h1, h2, h3⟩
        cases h1
        exact ⟨rfl, h2, by simpa using h3.symm⟩
      · rintro ⟨rfl, h2, rfl⟩; exact ⟨rfl, h2, rfl⟩
    have ns : ∀ k i p, NthPositional (o :: os) k (i + 1) p ↔
        if o.positional then ∃ k', k = k' + 1 ∧ NthPositional os k' i p else NthPositional os k i p := by
      intro k i p
      unfold NthPositional
      cases hp : o.positional with
      | true =>
        simp only [List.getElem?_cons_succ, List.take_succ_cons, List.filter_cons, hp, if_true, List.length_cons]
        constructor
        · rintro ⟨h1, h2, h3⟩; exact ⟨_, h3.symm, h1, h2, rfl⟩
        · rintro ⟨k', rfl, h1, h2, h3⟩; exact ⟨h1, h2, by omega⟩
      | false =>
        simp [List.getElem?_cons_succ, List.take_succ_cons, hp]
    have hcons := posLoop_cons o os b st
    cases hp : o.positional with
    | false =>
      have ns' : ∀ k i p, NthPositional (o :: os) k (i + 1) p ↔ NthPositional os k i p := by
        intro k i p; rw [ns, hp]; simp
      have n0' : ∀ k p, ¬ NthPositional (o :: os) k 0 p := by
        intro k p h; rw [n0, hp] at h; exact absurd h.2.1 (by simp)
      rw [(hcons pos).1 hp, ih]
      constructor
      · rintro ⟨h1, h2⟩
        refine ⟨?_, ?_⟩
        · intro k i p hn
          cases i with
          | zero => exact absurd hn (n0' k p)
          | succ i =>
            rw [ns'] at hn
            have := h1 k i p hn
            rwa [show b + 1 + i = b + (i + 1) by omega] at this
        · intro n hn
          refine h2 n ?_
          intro k i p w hp2 e
          exact hn k (i + 1) p w ((ns' k i p).2 hp2) (by omega)
      · rintro ⟨h1, h2⟩
        refine ⟨?_, ?_⟩
        · intro k i p hn
          have := h1 k (i + 1) p ((ns' k i p).2 hn)
          rwa [show b + (i + 1) = b + 1 + i by omega] at this
        · intro n hn
          refine h2 n ?_
          intro k i p w hp2 e
          cases i with
          | zero => exact absurd hp2 (n0' k p)
          | succ i => exact hn k i p w ((ns' k i p).1 hp2) (by omega)
    | true =>
      have ns' : ∀ k i p, NthPositional (o :: os) k (i + 1) p ↔ ∃ k', k = k' + 1 ∧ NthPositional os k' i p := by
        intro k i p; rw [ns, hp]; simp
      have n0' : NthPositional (o :: os) 0 0 o := (n0 0 o).2 ⟨rfl, hp, rfl⟩
      cases pos with
      | nil =>
        rw [(hcons []).2.1 hp]
        cases hr : o.required with
        | true =>
          simp only [if_true]
          constructor
          · intro h; cases h
          · rintro ⟨h1, _⟩
            have := (h1 0 0 o n0').2 hr
            simp at this
        | false =>
          simp only [Bool.false_eq_true, if_false]
          rw [ih]
          constructor
          · rintro ⟨h1, h2⟩
            refine ⟨?_, ?_⟩
            · intro k i p hn
              cases i with
              | zero =>
                obtain ⟨rfl, _, rfl⟩ := (n0 k p).1 hn
                refine ⟨by simp, fun h => ?_⟩
                rw [hr] at h; cases h
              | succ i =>
                obtain ⟨k', rfl, hn2⟩ := (ns' k i p).1 hn
                refine ⟨by simp, fun h => ?_⟩
                have := (h1 k' i p hn2).2 h
                simp at this
            · intro n hn; exact h2 n (by simp)
          · rintro ⟨h1, h2⟩
            refine ⟨?_, ?_⟩
            · intro k i p hn
              refine ⟨by simp, fun h => ?_⟩
              have := (h1 (k + 1) (i + 1) p ((ns' _ _ _).2 ⟨k, rfl, hn⟩)).2 h
              simp at this
            · intro n hn; exact h2 n (by simp)
      | cons w pos' =>
        cases hc : o.conv w with
        | none =>
          constructor
          · intro h; rw [((hcons pos').2.2 w hp).1 hc] at h; cases h
          · rintro ⟨h1, _⟩
            obtain ⟨v, hv, _⟩ := (h1 0 0 o n0').1 w rfl
            rw [hc] at hv; cases hv
        | some v =>
          rw [((hcons pos').2.2 w hp).2 v hc, ih]
          constructor
          · rintro ⟨h1, h2⟩
            have hb : st' b = some v := by
              rw [h2 b (by intro k i p w' _ e; omega)]; simp [setVal]
            refine ⟨?_, ?_⟩
            · intro k i p hn
              cases i with
              | zero =>
                obtain ⟨rfl, _, rfl⟩ := (n0 k p).1 hn
                refine ⟨?_, by simp⟩
                intro w' hw'
                rw [List.getElem?_cons_zero] at hw'; cases hw'
                exact ⟨v, hc, hb⟩
              | succ i =>
                obtain ⟨k', rfl, hn2⟩ := (ns' k i p).1 hn
                obtain ⟨h3, h4⟩ := h1 k' i p hn2
                refine ⟨?_, fun h => by simpa using h4 h⟩
                intro w' hw'
                rw [List.getElem?_cons_succ] at hw'
                rw [show b + (i + 1) = b + 1 + i by omega]
                exact h3 w' hw'
            · intro n hn
              have hne : n ≠ b := by
                rintro rfl
                exact hn 0 0 o w n0' rfl rfl
              rw [h2 n]
              · simp [setVal, hne]
              · intro k i p w' hp2 e hw'
                exact hn (k + 1) (i + 1) p w' ((ns' _ _ _).2 ⟨k, rfl, hp2⟩) (by omega) (by simpa using hw')
          · rintro ⟨h1, h2⟩
            obtain ⟨v', hv', hb⟩ := (h1 0 0 o n0').1 w rfl
            rw [hc] at hv'; cases hv'
            refine ⟨?_, ?_⟩
            · intro k i p hn
              obtain ⟨h3, h4⟩ := h1 (k + 1) (i + 1) p ((ns' _ _ _).2 ⟨k, rfl, hn⟩)
              refine ⟨?_, fun h => by simpa using h4 h⟩
              intro w' hw'
              rw [show b + 1 + i = b + (i + 1) by omega]
              exact h3 w' (by simpa using hw')
            · intro n hn
              by_cases hne : n = b
              · subst hne
                rw [Nat.add_zero] at hb
                rw [hb]; simp [setVal]
              · rw [h2 n]
                · simp [setVal, hne]
                · intro k i p w' hp2 e hw'
                  cases i with
                  | zero => exact hne (by omega)
                  | succ i =>
                    obtain ⟨k', rfl, hp3⟩ := (ns' k i p).1 hp2
                    exact hn k' i p w' hp3 (by omega) (by simpa using hw')

theorem req_ok_iff {V : Type} : ∀ (os : List (Opt V)) (b : Nat) (st st' : Vals V),
    reqLoop os b st = .ok st' ↔ st' = st ∧ ∀ i o, os[i]? = some o → o.required = true → (st (b + i)).isSome := by
  intro os
  induction os with
  | nil =>
    intro b st st'
    rw [reqLoop]
    constructor
    · intro h; cases h; exact ⟨rfl, by simp⟩
    · rintro ⟨rfl, _⟩; rfl
  | cons o os ih =>
    intro b st st'
    rw [reqLoop]
    by_cases hc : (o.required && (st b).isNone) = true
    · rw [if_pos hc]
      rw [Bool.and_eq_true] at hc
      constructor
      · intro h; cases h
      · rintro ⟨_, h⟩
        have := h 0 o rfl hc.1
        rw [Nat.add_zero] at this
        cases hs : st b <;> simp_all
    · rw [if_neg hc, ih]
      constructor
      · rintro ⟨rfl, h⟩
        refine ⟨rfl, ?_⟩
        intro i p hp hr
        cases i with
        | zero =>
          cases hp
          cases hs : st' b with
          | none => exfalso; apply hc; simp [hs, hr]
          | some v => simp
        | succ i => rw [show b + (i + 1) = b + 1 + i by omega]; exact h i p hp hr
      · rintro ⟨rfl, h⟩
        refine ⟨rfl, fun i p hp hr => ?_⟩
        rw [show b + 1 + i = b + (i + 1) by omega]
        exact h (i + 1) p hp hr

/-! ### The theorems -/

/-- The loop over the tokens succeeds exactly on the command lines that have a reading whose values convert. -/
theorem optLoop_ok_iff {V : Type} (opts : List (Opt V)) (st : Vals V) (argv : List Tok) (st1 : Vals V) (pos : List Tok) :
    optLoop opts argv st [] = .ok (st1, pos) ↔
      ∃ segs, Reading opts argv segs ∧ applySegs opts st segs = some st1 ∧ pos = positionals segs := by
  constructor
  · intro h
    obtain ⟨segs, hok, hc⟩ := cover opts _ argv (Nat.le_refl _)
    have key : ∀ rest, argv = segs.flatMap Seg.toks ++ rest → ∃ st', applySegs opts st segs = some st' ∧
        optLoop opts rest st' (positionals segs) = .ok (st1, pos) := by
      intro rest e
      subst e
      obtain ⟨h1, h2⟩ := loop_segs segs rest st [] hok
      cases ha : applySegs opts st segs with
      | none =>
        obtain ⟨_, _, _, _, _, _, h3⟩ := h2 ha
        rw [h3] at h; cases h
      | some st' =>
        rw [h1 st' ha, List.nil_append] at h
        exact ⟨st', rfl, h⟩
    rcases hc with e | ⟨t, rest, e, hd, hno⟩ | ⟨t, e, hd, i, o, ho, hb⟩
    · obtain ⟨st', ha, h3⟩ := key [] (by rw [e, List.append_nil])
      rw [optLoop] at h3
      cases h3
      exact ⟨segs, ⟨e, hok⟩, ha, rfl⟩
    · obtain ⟨st', ha, h3⟩ := key _ e
      rw [loop_unknown opts t rest _ _ hd hno] at h3; cases h3
    · obtain ⟨st', ha, h3⟩ := key _ e
      rw [loop_last opts t _ _ hd ho hb] at h3; cases h3
  · rintro ⟨segs, ⟨rfl, hok⟩, ha, rfl⟩
    have h1 := (loop_segs segs [] st [] hok).1 st1 ha
    rw [List.append_nil] at h1
    rw [h1, optLoop]; rfl

/-- Parsing succeeds with the values `st'` exactly when the command line has a reading and `st'` is its result: every
flag sets the option that declares it to the token after it (to true for a boolean option), a later one overrides an
earlier one, the k-th positional option has the k-th positional, options not mentioned keep what they had, and
the required ones have a value. -/
theorem C34_parse_ok_iff {V : Type} (opts : List (Opt V)) (st : Vals V) (argv : List Tok) (st' : Vals V) :
    parse opts st argv = .ok st' ↔ ∃ segs, Reading opts argv segs ∧ Result opts st segs st' := by
  constructor
  · intro h
    unfold parse at h
    cases h1 : optLoop opts argv st [] with
    | error e => rw [h1] at h; cases h
    | ok p =>
      obtain ⟨st1, pos⟩ := p
      simp only [h1] at h
      cases h2 : posLoop opts 0 st1 pos with
      | error e => rw [h2] at h; cases h
      | ok st2 =>
        rw [h2] at h
        obtain ⟨rfl, h3⟩ := (req_ok_iff opts 0 st2 st').1 h
        obtain ⟨segs, hr, ha, rfl⟩ := (optLoop_ok_iff opts st argv st1 pos).1 h1
        obtain ⟨p1, p2⟩ := (pos_ok_iff opts 0 st1 st' _).1 h2
        refine ⟨segs, hr, (apply_some_iff segs st hr.2).1 ⟨st1, ha⟩, ?_, ?_, ?_, ?_⟩
        · intro k i o w hn hw
          have := (p1 k i o hn).1 w hw
          rwa [Nat.zero_add] at this
        · intro i hi
          rw [apply_fromFlags segs st st1 ha]
          refine p2 i ?_
          intro k j o w hn e
          rw [Nat.zero_add] at e
          subst e
          exact hi k o w hn
        · intro i o ho hreq
          have := h3 i o ho hreq
          rwa [Nat.zero_add] at this
        · intro k i o hn; exact (p1 k i o hn).2
  · rintro ⟨segs, hr, hres⟩
    obtain ⟨st1, ha⟩ := (apply_some_iff segs st hr.2).2 hres.convert
    have h1 := (optLoop_ok_iff opts st argv st1 _).2 ⟨segs, hr, ha, rfl⟩
    have h2 : posLoop opts 0 st1 (positionals segs) = .ok st' := by
      rw [pos_ok_iff]
      refine ⟨?_, ?_⟩
      · intro k i o hn
        rw [Nat.zero_add]
        exact ⟨fun w hw => hres.positional k i o w hn hw, hres.requiredPos k i o hn⟩
      · intro n hn
        refine (apply_fromFlags segs st st1 ha n _).1 (hres.flags n ?_)
        intro k o w hp
        exact hn k n o w hp (by omega)
    unfold parse
    simp only [h1, h2]
    rw [req_ok_iff]
    exact ⟨rfl, fun i o ho hq => by rw [Nat.zero_add]; exact hres.required i o ho hq⟩

/-- The user's view of a flag with a value: if the command line is accepted and `t w` is the last segment for that option,
which takes no positional, then reading any of the option's flags gives the value of `w`. -/
theorem C34_last_value_wins {V : Type} {opts : List (Opt V)} {st st' : Vals V} {argv : List Tok} {a b : List Seg}
    {t w : Tok} {i : Nat} {o : Opt V} (hp : parse opts st argv = .ok st')
    (hr : Reading opts argv (a ++ .valued t w :: b)) (ho : Declares opts t i o) (hpos : o.positional = false)
    (hb : ∀ s ∈ b, ∀ v, ¬ Assigns opts s i v) {f : Tok} (hf : Declares opts f i o) :
    ∃ v, o.conv w = some v ∧ get opts st' f = some v := by
  obtain ⟨segs, hr2, hres⟩ := (C34_parse_ok_iff opts st argv st').1 hp
  obtain rfl := C34_reading_unique hr hr2
  have hc := hres.convert t w (by simp) i o ho
  obtain ⟨v, hv⟩ := Option.isSome_iff_exists.1 hc
  refine ⟨v, hv, ?_⟩
  have h1 := hres.flags i (by
    intro k p w' hn
    have h2 := hn.1
    rw [ho.1] at h2
    cases h2
    have h3 := hn.2.1
    rw [hpos] at h3; cases h3)
  obtain ⟨st1, ha⟩ := (apply_some_iff _ st hr.2).2 hres.convert
  have h2 : FromFlags opts st (a ++ .valued t w :: b) i (some v) :=
    .inl ⟨a, _, b, v, rfl, ⟨o, ho, hv⟩, hb, rfl⟩
  rw [apply_fromFlags _ _ _ ha] at h1 h2
  have h3 : st' i = some v := by rw [h1, ← h2]
  unfold get
  simp only [declares_find hf, hf.1, h3]

/-- An option that no segment mentions and that takes no positional keeps its default. -/
theorem C34_default {V : Type} {opts : List (Opt V)} {st st' : Vals V} {argv : List Tok} {segs : List Seg}
    {i : Nat} {o : Opt V} (hp : parse opts st argv = .ok st') (hr : Reading opts argv segs) (hi : st i = none)
    (hs : ∀ s ∈ segs, ∀ v, ¬ Assigns opts s i v) (hpos : o.positional = false) {f : Tok} (hf : Declares opts f i o) :
    get opts st' f = some o.dflt := by
  obtain ⟨segs', hr2, hres⟩ := (C34_parse_ok_iff opts st argv st').1 hp
  obtain rfl := C34_reading_unique hr hr2
  have h1 := hres.flags i (by
    intro k p w' hn
    have h2 := hn.1
    rw [hf.1] at h2
    cases h2
    have h3 := hn.2.1
    rw [hpos] at h3; cases h3)
  obtain ⟨st1, ha⟩ := (apply_some_iff _ st hr.2).2 hres.convert
  have h2 : FromFlags opts st segs i none := .inr ⟨hs, hi.symm⟩
  rw [apply_fromFlags _ _ _ ha] at h1 h2
  have h3 : st' i = none := by rw [h1, ← h2]
  unfold get
  simp only [declares_find hf, hf.1, h3]

/-- An unknown option is reported exactly when the tokens before it read well and it is a dashed token that no option
declares. -/
theorem C34_unknown_iff {V : Type} (opts : List (Opt V)) (st : Vals V) (argv : List Tok) (t : Tok) :
    parse opts st argv = .error (.unknown t) ↔
      ∃ (segs : List Seg) (rest : List Tok), argv = segs.flatMap Seg.toks ++ t :: rest ∧ (∀ s ∈ segs, s.Ok opts) ∧
        (∀ t w, .valued t w ∈ segs → ∀ i o, Declares opts t i o → (o.conv w).isSome) ∧
        Dashed t ∧ ∀ i o, ¬ Declares opts t i o := by
  have hpos : ∀ (os : List (Opt V)) (b : Nat) (st : Vals V) (pos : List Tok), posLoop os b st pos ≠ .error (.unknown t) := by
    intro os
    induction os with
    | nil => intro b st pos h; rw [posLoop] at h; cases h
    | cons o os ih =>
      intro b st pos h
      unfold posLoop at h
      split at h
      · split at h
        · split at h
          · cases h
          · exact ih _ _ _ h
        · split at h
          · cases h
          · exact ih _ _ _ h
      · exact ih _ _ _ h
  have hreq : ∀ (os : List (Opt V)) (b : Nat) (st : Vals V), reqLoop os b st ≠ .error (.unknown t) := by
    intro os
    induction os with
    | nil => intro b st h; rw [reqLoop] at h; cases h
    | cons o os ih =>
      intro b st h
      rw [reqLoop] at h
      split at h
      · cases h
      · exact ih _ _ h
  have hopt : parse opts st argv = .error (.unknown t) ↔ optLoop opts argv st [] = .error (.unknown t) := by
    unfold parse
    cases h1 : optLoop opts argv st [] with
    | error e => simp
    | ok p =>
      obtain ⟨st1, pos⟩ := p
      simp only []
      cases h2 : posLoop opts 0 st1 pos with
      | error e =>
        have := hpos opts 0 st1 pos
        rw [h2] at this
        simpa using this
      | ok st2 => simpa using hreq opts 0 st2
  rw [hopt]
  constructor
  · intro h
    obtain ⟨segs, hok, hc⟩ := cover opts _ argv (Nat.le_refl _)
    have key : ∀ rest, argv = segs.flatMap Seg.toks ++ rest → ∃ st', applySegs opts st segs = some st' ∧
        optLoop opts rest st' (positionals segs) = .error (.unknown t) := by
      intro rest e
      subst e
      obtain ⟨h1, h2⟩ := loop_segs segs rest st [] hok
      cases ha : applySegs opts st segs with
      | none =>
        obtain ⟨_, _, _, _, _, _, h3⟩ := h2 ha
        rw [h3] at h; cases h
      | some st' =>
        rw [h1 st' ha, List.nil_append] at h
        exact ⟨st', rfl, h⟩
    rcases hc with e | ⟨t', rest, e, hd, hno⟩ | ⟨t', e, hd, i, o, ho, hb⟩
    · obtain ⟨st', ha, h3⟩ := key [] (by rw [e, List.append_nil])
      rw [optLoop] at h3
      cases h3
    · obtain ⟨st', ha, h3⟩ := key _ e
      rw [loop_unknown opts t' rest _ _ hd hno] at h3; cases h3
      exact ⟨segs, rest, e, hok, (apply_some_iff segs st hok).1 ⟨st', ha⟩, hd, hno⟩
    · obtain ⟨st', ha, h3⟩ := key _ e
      rw [loop_last opts t' _ _ hd ho hb] at h3; cases h3
  · rintro ⟨segs, rest, rfl, hok, hc, hd, hno⟩
    obtain ⟨st', ha⟩ := (apply_some_iff segs st hok).2 hc
    rw [(loop_segs segs (t :: rest) st [] hok).1 st' ha, loop_unknown opts t rest _ _ hd hno]

/-! ### Declaring options -/

theorem splitLoop_plain : ∀ (a cur : Tok), '|' ∉ a → splitLoop a cur = if (cur ++ a).isEmpty then [] else [cur ++ a] := by
  intro a
  induction a with
  | nil => intro cur _; simp [splitLoop]
  | cons c cs ih =>
    intro cur h
    have h1 : c ≠ '|' := by rintro rfl; simp at h
    rw [splitLoop, if_neg h1, ih (cur ++ [c]) (by simp at h; exact h.2)]
    simp

theorem splitLoop_pipe : ∀ (a cur b : Tok), '|' ∉ a → splitLoop (a ++ '|' :: b) cur =
    (if (cur ++ a).isEmpty then [] else [cur ++ a]) ++ splitLoop b [] := by
  intro a
  induction a with
  | nil => intro cur b _; simp [splitLoop]
  | cons c cs ih =>
    intro cur b h
    have h1 : c ≠ '|' := by rintro rfl; simp at h
    rw [List.cons_append, splitLoop, if_neg h1, ih (cur ++ [c]) b (by simp at h; exact h.2)]
    simp

/-- The text `f1|f2|...|fn`. -/
def joinPipe : List Tok → Tok
  | [] => []
  | [f] => f
  | f :: fs => f ++ '|' :: joinPipe fs

/-- Declaring `f1|...|fn` declares exactly these flags, in order, and no positional option. -/
theorem C34_flags_declared {V : Type} (conv : Tok → Option V) (isBool : Bool) (tt dflt : V) (fs : List Tok) (hne : fs ≠ [])
    (h : ∀ f ∈ fs, f ≠ [] ∧ '|' ∉ f) :
    (addOpt conv isBool tt dflt (joinPipe fs)).flags = fs ∧ (addOpt conv isBool tt dflt (joinPipe fs)).positional = false := by
  have key : ∀ fs : List Tok, fs ≠ [] → (∀ f ∈ fs, f ≠ [] ∧ '|' ∉ f) → splitLoop (joinPipe fs) [] = fs := by
    intro fs
    induction fs with
    | nil => intro h; exact absurd rfl h
    | cons f fs ih =>
      intro _ h
      have h0 := h f (List.mem_cons_self ..)
      cases fs with
      | nil =>
        rw [joinPipe, splitLoop_plain f [] h0.2]
        simp [h0.1]
      | cons g gs =>
        rw [joinPipe, splitLoop_pipe f [] _ h0.2, ih (by simp) fun x hx => h x (List.mem_cons_of_mem _ hx)]
        · simp [h0.1]
        · simp
  have h1 : splitFlags (joinPipe fs) = fs := by
    unfold splitFlags
    rw [key fs hne h]
    cases fs with
    | nil => exact absurd rfl hne
    | cons f fs => simp
  refine ⟨h1, ?_⟩
  show (splitFlags (joinPipe fs)).isEmpty = false
  rw [h1]
  cases fs with
  | nil => exact absurd rfl hne
  | cons f fs => rfl

/-- Declaring the empty text declares a positional option. -/
theorem C34_positional_declared {V : Type} (conv : Tok → Option V) (isBool : Bool) (tt dflt : V) :
    (addOpt conv isBool tt dflt []).flags = [] ∧ (addOpt conv isBool tt dflt []).positional = true := ⟨rfl, rfl⟩

/-! ### Examples, and what users may not expect -/

inductive Val where
  | b (x : Bool)
  | i (x : Int)
  | s (x : Tok)
  deriving DecidableEq, Repr

def tModel : Tok := ['-', '-', 'm', 'o', 'd', 'e', 'l']
def tM : Tok := ['-', 'm']
def tHelp : Tok := ['-', '-', 'h', 'e', 'l', 'p']
def tN : Tok := ['-', 'n']

/-- `--model|-m` (text, required), `--help` (boolean), `-n` (32-bit integer, default 7), and a positional text. -/
def demo : List (Opt Val) :=
  [{ addOpt (fun w => (convString w).map .s) false (.b true) (.s []) (tModel ++ '|' :: tM) with required := true },
   addOpt (fun w => (convBool w).map .b) true (.b true) (.b false) tHelp,
   addOpt (fun w => (convInt (-2147483648) 2147483647 w).map .i) false (.b true) (.i 7) tN,
   addOpt (fun w => (convString w).map .s) false (.b true) (.s []) []]

def demoRun (argv : List Tok) : Except Err (List (Option Val)) :=
  (parse demo (fun _ => none) argv).map fun st => [st 0, st 1, st 2, st 3]

/-- `-m a x --help -n 12` -/
example : demoRun [tM, ['a'], ['x'], tHelp, tN, ['1', '2']] =
    .ok [some (.s ['a']), some (.b true), some (.i 12), some (.s ['x'])] := by decide +kernel

/-- Of the hypotheses of `C34_last_value_wins`. -/
example : Reading demo [tM, ['a'], tModel, ['b'], tHelp] ([.valued tM ['a']] ++ .valued tModel ['b'] :: [.flag tHelp]) ∧
    Declares demo tModel 0 demo[0] ∧ demo[0].positional = false := by
  have d0 : ∀ t, t ∈ demo[0].flags → Declares demo t 0 demo[0] := fun t h => ⟨rfl, h, fun j p hj => by omega⟩
  refine ⟨⟨rfl, ?_⟩, d0 _ (by decide +kernel), by decide +kernel⟩
  intro s hs
  simp only [List.cons_append, List.nil_append, List.mem_cons, List.not_mem_nil, or_false] at hs
  rcases hs with rfl | rfl | rfl
  · exact ⟨⟨_, rfl⟩, 0, demo[0], d0 _ (by decide +kernel), by decide +kernel⟩
  · exact ⟨⟨_, rfl⟩, 0, demo[0], d0 _ (by decide +kernel), by decide +kernel⟩
  · refine ⟨⟨_, rfl⟩, 1, demo[1], ⟨rfl, by decide +kernel, ?_⟩, by decide +kernel⟩
    intro j p hj hp
    have : j = 0 := by omega
    subst this
    cases hp
    decide +kernel

/-- The token after a flag is its value even if it is itself a declared flag: `--model --help` does not show the help. -/
theorem C34_value_may_be_a_flag : demoRun [tModel, tHelp] = .ok [some (.s tHelp), none, none, none] := by decide +kernel

/-- Positionals beyond the declared ones are dropped without an error. -/
theorem C34_extra_positionals_ignored {V : Type} (opts : List (Opt V)) (st : Vals V) (argv : List Tok) (t : Tok)
    (segs : List Seg) (hr : Reading opts argv segs) (ht : ¬ Dashed t)
    (hn : (opts.filter (·.positional)).length ≤ (positionals segs).length) :
    parse opts st (argv ++ [t]) = parse opts st argv := by
  have hp : ∀ (os : List (Opt V)) (b : Nat) (st : Vals V) (pos : List Tok),
      (os.filter (·.positional)).length ≤ pos.length → posLoop os b st (pos ++ [t]) = posLoop os b st pos := by
    intro os
    induction os with
    | nil => intro b st pos _; rw [posLoop, posLoop]
    | cons o os ih =>
      intro b st pos h
      have hcons := posLoop_cons o os b st
      cases hp : o.positional with
      | false =>
        rw [(hcons _).1 hp, (hcons _).1 hp]
        exact ih _ _ _ (by simpa [List.filter_cons, hp] using h)
      | true =>
        cases pos with
        | nil => simp [hp] at h
        | cons w pos' =>
          rw [List.cons_append]
          cases hc : o.conv w with
          | none => rw [((hcons _).2.2 w hp).1 hc, ((hcons _).2.2 w hp).1 hc]
          | some v =>
            rw [((hcons _).2.2 w hp).2 v hc, ((hcons _).2.2 w hp).2 v hc]
            exact ih _ _ _ (by simpa [List.filter_cons, hp] using h)
  obtain ⟨rfl, hok⟩ := hr
  obtain ⟨h1, h2⟩ := loop_segs segs [t] st [] hok
  obtain ⟨h3, h4⟩ := loop_segs segs [] st [] hok
  rw [List.append_nil] at h3 h4
  unfold parse
  cases ha : applySegs opts st segs with
  | none =>
    -- both runs stop at the same segment
    have h5 : ∀ (segs : List Seg) (rest : List Tok) (st : Vals V) (pos : List Tok), (∀ s ∈ segs, s.Ok opts) →
        applySegs opts st segs = none →
        optLoop opts (segs.flatMap Seg.toks ++ rest) st pos = optLoop opts (segs.flatMap Seg.toks) st pos := by
      intro segs
      induction segs with
      | nil => intro rest st pos _ h; rw [applySegs] at h; cases h
      | cons s ss ih =>
        intro rest st pos hok h
        have hok' : ∀ s ∈ ss, s.Ok opts := fun s hs => hok s (List.mem_cons_of_mem _ hs)
        have h0 := hok s (List.mem_cons_self ..)
        cases s with
        | pos t' =>
          show optLoop opts (t' :: (ss.flatMap Seg.toks ++ rest)) st pos = optLoop opts (t' :: ss.flatMap Seg.toks) st pos
          rw [loop_pos opts _ _ _ _ h0, loop_pos opts _ _ _ _ h0]
          exact ih rest st _ hok' h
        | flag t' =>
          obtain ⟨hda, i, o, hd, hb⟩ := h0
          show optLoop opts (t' :: (ss.flatMap Seg.toks ++ rest)) st pos = optLoop opts (t' :: ss.flatMap Seg.toks) st pos
          rw [loop_flag opts _ _ _ _ hda hd hb, loop_flag opts _ _ _ _ hda hd hb]
          refine ih rest _ _ hok' ?_
          rw [applySegs, declares_find hd] at h
          simpa [hd.1] using h
        | valued t' w =>
          obtain ⟨hda, i, o, hd, hb⟩ := h0
          show optLoop opts (t' :: w :: (ss.flatMap Seg.toks ++ rest)) st pos =
            optLoop opts (t' :: w :: ss.flatMap Seg.toks) st pos
          have l1 := loop_valued opts t' w (ss.flatMap Seg.toks ++ rest) st pos hda hd hb
          have l2 := loop_valued opts t' w (ss.flatMap Seg.toks) st pos hda hd hb
          cases hc : o.conv w with
          | none => rw [l1.1 hc, l2.1 hc]
          | some v =>
            rw [l1.2 v hc, l2.2 v hc]
            refine ih rest _ _ hok' ?_
            rw [applySegs, declares_find hd] at h
            simpa [hd.1, hc] using h
    rw [h5 segs [t] st [] hok ha]
  | some st' =>
    rw [h1 st' ha, h3 st' ha, loop_pos opts t [] _ _ ht, optLoop, optLoop]
    simp only [List.nil_append]
    rw [hp opts 0 st' (positionals segs) hn]

/-- Such a command line: `-m a x y`, `y` is dropped. -/
example : demoRun [tM, ['a'], ['x'], ['y']] = .ok [some (.s ['a']), none, none, some (.s ['x'])] ∧
    ¬ Dashed ['y'] ∧ (demo.filter (·.positional)).length ≤ (positionals [.valued tM ['a'], .pos ['x']]).length := by
  refine ⟨by decide +kernel, ?_, by decide +kernel⟩
  rintro ⟨r, h⟩; cases h

/-- A negative number cannot be a positional: it is taken for an option. -/
theorem C34_negative_positional_rejected (d : Char) (r : Tok) (opts : List (Opt Val)) (st : Vals Val)
    (h : ∀ i o, ¬ Declares opts ('-' :: d :: r) i o) :
    parse opts st ['-' :: d :: r] = .error (.unknown ('-' :: d :: r)) :=
  (C34_unknown_iff opts st _ _).2 ⟨[], [], rfl, by simp, by simp, ⟨_, rfl⟩, h⟩

/-- An integer option accepts trailing garbage: what follows the digits is not looked at. -/
theorem C34_integer_trailing_garbage (lo hi : Int) (ds : Tok) (c : Char) (r : Tok) (hd : ∀ x ∈ ds, isDigit x = true)
    (hne : ds ≠ []) (hc : isDigit c = false) : convInt lo hi (ds ++ c :: r) = convInt lo hi ds := by
  cases ds with
  | nil => exact absurd rfl hne
  | cons d ds =>
    have hd0 := hd d (List.mem_cons_self ..)
    have hsp : isSpace d = false := by
      rw [← Bool.not_eq_true]
      intro h
      simp only [isSpace, Bool.or_eq_true, decide_eq_true_eq] at h
      rcases h with ((((rfl | rfl) | rfl) | rfl) | rfl) | rfl <;> exact absurd hd0 (by decide)
    have hm : d ≠ '-' := by rintro rfl; exact absurd hd0 (by decide)
    have hp : d ≠ '+' := by rintro rfl; exact absurd hd0 (by decide)
    have h1 : ∀ x : Tok, (d :: x).dropWhile isSpace = d :: x := by
      intro x; rw [List.dropWhile_cons, hsp]; simp
    have h2 : ∀ x : Tok, convInt lo hi (d :: x) =
        (convDigits (d :: x)).bind fun n => if (n : Int) ≤ hi then some (n : Int) else none := by
      intro x
      unfold convInt
      rw [h1]
      split
      · rename_i e; cases e; exact absurd rfl hm
      · rename_i e; cases e; exact absurd rfl hp
      · rfl
    have h3 : ((d :: ds) ++ c :: r).takeWhile isDigit = d :: ds := by
      rw [List.takeWhile_append_of_pos hd, List.takeWhile_cons, hc]; simp
    have h4 : (d :: ds).takeWhile isDigit = d :: ds := by
      have := List.takeWhile_append_of_pos (l₂ := []) hd
      simpa using this
    rw [List.cons_append, h2, h2]
    unfold convDigits
    rw [← List.cons_append, h3, h4]

/-- `-n 12abc` is `-n 12`. -/
example : demoRun [tM, ['a'], tN, ['1', '2', 'a', 'b']] = .ok [some (.s ['a']), none, some (.i 12), none] := by
  decide +kernel

end Verif.Args
